import Verif.Lemmas.FmtDebug

/-!
# C180: derived debug texts, with options
-/

namespace Verif

open Fmt

/-- What is written with given options does not depend on the writer. -/
theorem withOpts_writes (ps : FmtOpts → List (List Char)) (o : FmtOpts) :
    Fmt.text (ofPieces ps) o = .ok (ps o).flatten ∧
      Delivers ((ofPieces ps).withOpts o) (Fmt.text (ofPieces ps) o) := by
  have h1 : Fmt.text (ofPieces ps) o = .ok (ps o).flatten := by
    rw [← (Writes.all (ps o)).text o]
    rfl
  refine ⟨h1, ?_⟩
  rw [h1]
  have h2 := (Writes.all (ps o)).delivers
  intro f
  exact h2 { f with opts := o }

/-- C180, delivery: with whatever options, the text is delivered piece by piece up to the first refusal. -/
theorem C180_delivers (o : FmtOpts) (a : Bytes) (v : List Int) (m : List (List Int)) (rows cols : Nat) :
    Delivers ((IN.fmtDebugOpts a).withOpts o) (Fmt.text (IN.fmtDebugOpts a) o) ∧
    Delivers ((Vect.fmtDebug v).withOpts o) (Fmt.text (Vect.fmtDebug v) o) ∧
    Delivers ((Mat.fmtDebug m).withOpts o) (Fmt.text (Mat.fmtDebug m) o) ∧
    Delivers ((DynMat.fmtDebug v rows cols).withOpts o) (Fmt.text (DynMat.fmtDebug v rows cols) o) :=
  ⟨(withOpts_writes _ o).2, (withOpts_writes _ o).2, (withOpts_writes _ o).2, (withOpts_writes _ o).2⟩

theorem ints_shows (o : FmtOpts) (hf : Plain o.fill) (v : List Int) :
    ShowsInts (listPieces o (v.map (intPieces o))).flatten v := by
  have h := listPieces_shows o (v.map fun z => (intPieces o z, [z])) (by
    intro x hx
    obtain ⟨z, _, rfl⟩ := List.mem_map.mp hx
    simp only [intPieces_flatten]
    exact stdDecimal_reads o hf z)
  rw [List.map_map] at h
  have e : (v.map fun z => (intPieces o z, [z])).flatMap Prod.snd = v := by
    clear h
    induction v with
    | nil => rfl
    | cons z v ih => simp [ih]
  rw [e] at h
  exact h

theorem ShowsInts.all {t : List Char} {l : List Int} (h : ShowsInts t l) : integersIn false none t = l := by
  have := h []
  simpa [integersIn] using this

theorem vect_shows (o : FmtOpts) (hf : Plain o.fill) (v : List Int) (name : List Char)
    (hn : ∀ c ∈ name, Plain c) :
    ShowsInts (tuplePieces o name (listPieces o (v.map (intPieces o)))).flatten v :=
  tuplePieces_shows o name hn _ _ (ints_shows o hf v)

/-- C180: with whatever options, unless numbers are padded with digits or minus signs, the integers in the debug
text are the bytes of an `I<N>`, the components of a `Vector`, the entries of a `Matrix` row by row, and the entries of
a `DynMatrix` followed by its numbers of rows and columns. -/
theorem C180_tells (o : FmtOpts) (hf : ¬ ('0' ≤ o.fill ∧ o.fill ≤ '9') ∧ o.fill ≠ '-') :
    (∀ a : Bytes, ∃ s, Fmt.text (IN.fmtDebugOpts a) o = .ok s ∧
      integersIn false none s = a.map fun x => (x.toNat : Int)) ∧
    (∀ v : List Int, ∃ s, Fmt.text (Vect.fmtDebug v) o = .ok s ∧ integersIn false none s = v) ∧
    (∀ m : List (List Int), ∃ s, Fmt.text (Mat.fmtDebug m) o = .ok s ∧ integersIn false none s = m.flatten) ∧
    (∀ (v : List Int) (rows cols : Nat), ∃ s, Fmt.text (DynMat.fmtDebug v rows cols) o = .ok s ∧
      integersIn false none s = v ++ [(rows : Int), (cols : Int)]) := by
  refine ⟨fun a => ⟨_, (withOpts_writes _ o).1, ?_⟩, fun v => ⟨_, (withOpts_writes _ o).1, ?_⟩,
    fun m => ⟨_, (withOpts_writes _ o).1, ?_⟩, fun v rows cols => ⟨_, (withOpts_writes _ o).1, ?_⟩⟩
  · have h := vect_shows o hf (a.map fun x => (x.toNat : Int)) ['I'] (by decide)
    rw [List.map_map] at h
    exact h.all
  · exact (vect_shows o hf v _ (by decide)).all
  · refine (tuplePieces_shows o _ (by decide) _ _ ?_).all
    have h := listPieces_shows o (m.map fun r => (listPieces o (r.map (intPieces o)), r)) (by
      intro x hx
      obtain ⟨r, _, rfl⟩ := List.mem_map.mp hx
      exact (ints_shows o hf r).reads)
    rw [List.map_map] at h
    have e : (m.map fun r => (listPieces o (r.map (intPieces o)), r)).flatMap Prod.snd = m.flatten := by
      clear h
      induction m with
      | nil => rfl
      | cons z v ih => simp [ih]
    rw [e] at h
    exact h
  · have hr : ∀ n : Nat, ReadsInts (intPieces o n).flatten [(n : Int)] := fun n => by
      rw [intPieces_flatten]; exact stdDecimal_reads o hf n
    exact (structPieces_shows o ['D', 'y', 'n', 'M', 'a', 't', 'r', 'i', 'x'] ['d', 'a', 't', 'a'] (by decide)
      (by decide) _ _ (ints_shows o hf v).reads
      [(['r', 'o', 'w', 's'], intPieces o rows, [(rows : Int)]),
        (['c', 'o', 'l', 's'], intPieces o cols, [(cols : Int)])] (by
        intro f hf
        simp only [List.mem_cons, List.not_mem_nil, or_false] at hf
        rcases hf with rfl | rfl
        · exact ⟨by simp only; decide, hr rows⟩
        · exact ⟨by simp only; decide, hr cols⟩)).all

/-- C180, consequences: equal texts mean equal values (for static matrices, of equal dimensions). -/
theorem C180_injective (o : FmtOpts) (hf : ¬ ('0' ≤ o.fill ∧ o.fill ≤ '9') ∧ o.fill ≠ '-') :
    (∀ a b : Bytes, Fmt.text (IN.fmtDebugOpts a) o = Fmt.text (IN.fmtDebugOpts b) o ↔ a = b) ∧
    (∀ a b : List Int, Fmt.text (Vect.fmtDebug a) o = Fmt.text (Vect.fmtDebug b) o ↔ a = b) ∧
    (∀ (R C : Nat) (a b : List (List Int)), a.length = R → b.length = R → (∀ r ∈ a, r.length = C) →
      (∀ r ∈ b, r.length = C) → (Fmt.text (Mat.fmtDebug a) o = Fmt.text (Mat.fmtDebug b) o ↔ a = b)) ∧
    (∀ (a b : List Int) (r c r' c' : Nat),
      Fmt.text (DynMat.fmtDebug a r c) o = Fmt.text (DynMat.fmtDebug b r' c') o ↔ a = b ∧ r = r' ∧ c = c') := by
  obtain ⟨h1, h2, h3, h4⟩ := C180_tells o hf
  refine ⟨fun a b => ⟨fun h => ?_, fun h => by rw [h]⟩, fun a b => ⟨fun h => ?_, fun h => by rw [h]⟩,
    fun R C a b ha hb hra hrb => ⟨fun h => ?_, fun h => by rw [h]⟩,
    fun a b r c r' c' => ⟨fun h => ?_, fun h => by rw [h.1, h.2.1, h.2.2]⟩⟩
  · obtain ⟨s, hs, es⟩ := h1 a
    obtain ⟨t, ht, et⟩ := h1 b
    rw [hs, ht, Res.ok.injEq] at h
    rw [h, et] at es
    refine (List.map_injective_iff.mpr (fun x y hxy => BitVec.eq_of_toNat_eq ?_) es).symm
    simpa using hxy
  · obtain ⟨s, hs, es⟩ := h2 a
    obtain ⟨t, ht, et⟩ := h2 b
    rw [hs, ht, Res.ok.injEq] at h
    rw [← es, h, et]
  · obtain ⟨s, hs, es⟩ := h3 a
    obtain ⟨t, ht, et⟩ := h3 b
    rw [hs, ht, Res.ok.injEq] at h
    rw [h, et] at es
    clear hs ht h et h1 h2 h3 h4
    subst ha
    induction a generalizing b with
    | nil => exact (List.length_eq_zero_iff.mp hb).symm
    | cons x xs ih =>
      cases b with
      | nil => simp at hb
      | cons y ys =>
        rw [List.flatten_cons, List.flatten_cons] at es
        have hl : y.length = x.length := by rw [hra x (by simp), hrb y (by simp)]
        obtain ⟨e1, e2⟩ := List.append_inj es hl
        rw [e1, ih ys (fun r hr => hra r (by simp [hr])) (fun r hr => hrb r (by simp [hr])) e2 (by simpa using hb)]
  · obtain ⟨s, hs, es⟩ := h4 a r c
    obtain ⟨t, ht, et⟩ := h4 b r' c'
    rw [hs, ht, Res.ok.injEq] at h
    rw [h, et] at es
    obtain ⟨e1, e2⟩ := List.append_inj' es rfl
    simp only [List.cons.injEq, Int.natCast_inj, and_true] at e2
    exact ⟨e1.symm, e2.1.symm, e2.2.symm⟩

/-- A vector and a dynamic matrix, with line breaks, and padded. -/
example :
    Fmt.text (Vect.fmtDebug [-7, 12]) { alternate := true } =
      .ok "Vector(\n    [\n        -7,\n        12,\n    ],\n)".toList ∧
    Fmt.text (DynMat.fmtDebug [-7, 12] 1 2) { width := some 4, fill := '_' } =
      .ok "DynMatrix { data: [__-7, __12], rows: ___1, cols: ___2 }".toList ∧
    Fmt.text (Mat.fmtDebug [[1, 2], [3, 4]]) { plus := true } =
      .ok "Matrix([[+1, +2], [+3, +4]])".toList := by decide +kernel

/-- Padded with minus signs, 5 reads as -5; padded with ones, 1 and 11 have the same text. -/
example :
    Fmt.text (Vect.fmtDebug [5]) { width := some 2, fill := '-' } = Fmt.text (Vect.fmtDebug [-5]) { width := some 2 } ∧
    Fmt.text (Vect.fmtDebug [1]) { width := some 3, fill := '1' } =
      Fmt.text (Vect.fmtDebug [11]) { width := some 3, fill := '1' } := by decide +kernel

/-! ## Layout -/

theorem moreEntries_flatten (x : List (List Char)) (xs : List (List (List Char))) :
    (x ++ moreEntries xs).flatten = List.intercalate [',', ' '] ((x :: xs).map List.flatten) := by
  induction xs generalizing x with
  | nil => simp [moreEntries, List.intercalate]
  | cons y ys ih =>
    have := ih y
    rw [moreEntries, List.flatten_append, List.append_assoc, List.flatten_append, this]
    simp [List.intercalate, List.intersperse]

theorem layout_one (o : FmtOpts) (ha : o.alternate = false) (name : String) (v : List Int) :
    (tuplePieces o name.toList (listPieces o (v.map (intPieces o)))).flatten =
      oneLine name (v.map (stdDecimal o)) := by
  unfold tuplePieces listPieces oneLine
  rw [ha]
  cases v with
  | nil => simp [List.intercalate]
  | cons z v =>
    have := moreEntries_flatten (intPieces o z) (v.map (intPieces o))
    simp only [List.map_cons, List.map_map] at this
    simp only [List.map_cons, Bool.false_eq_true, if_false, List.flatten_append, this]
    have e : (List.flatten ∘ intPieces o) = stdDecimal o := by
      funext z; exact intPieces_flatten o z
    rw [e, intPieces_flatten]
    simp

/-- A list on one line. -/
theorem list_one (o : FmtOpts) (ha : o.alternate = false) (xs : List (List (List Char))) :
    (listPieces o xs).flatten = ['['] ++ List.intercalate ", ".toList (xs.map List.flatten) ++ [']'] := by
  unfold listPieces
  cases xs with
  | nil => simp [List.intercalate]
  | cons x xs =>
    have := moreEntries_flatten x xs
    simp only [ha, Bool.false_eq_true, if_false, List.flatten_append, List.flatten_cons] at this ⊢
    rw [this]
    simp

theorem ints_one (o : FmtOpts) (ha : o.alternate = false) (v : List Int) :
    (listPieces o (v.map (intPieces o))).flatten =
      ['['] ++ List.intercalate ", ".toList (v.map (stdDecimal o)) ++ [']'] := by
  have e : (List.flatten ∘ intPieces o) = stdDecimal o := by
    funext z; exact intPieces_flatten o z
  rw [list_one o ha, List.map_map, e]

/-- C180, layout of matrices without `#`: `Matrix([[a, b], [c, d]])`, and
`DynMatrix { data: [a, b], rows: r, cols: c }`. -/
theorem C180_matrix_layout (o : FmtOpts) (ha : o.alternate = false) (m : List (List Int)) (v : List Int)
    (rows cols : Nat) :
    let row := fun r : List Int => ['['] ++ List.intercalate ", ".toList (r.map (stdDecimal o)) ++ [']']
    Fmt.text (Mat.fmtDebug m) o = .ok (oneLine "Matrix" (m.map row)) ∧
    Fmt.text (DynMat.fmtDebug v rows cols) o = .ok ("DynMatrix { data: ".toList ++ row v ++
      ", rows: ".toList ++ stdDecimal o rows ++ ", cols: ".toList ++ stdDecimal o cols ++ " }".toList) := by
  intro row
  constructor
  · refine (withOpts_writes _ o).1.trans ?_
    have e : (List.flatten ∘ fun r : List Int => listPieces o (r.map (intPieces o))) = row := by
      funext r; exact ints_one o ha r
    have h := list_one o ha (m.map fun r => listPieces o (r.map (intPieces o)))
    rw [List.map_map, e] at h
    simp only [tuplePieces, ha, Bool.false_eq_true, if_false, List.flatten_append, h]
    simp [oneLine]
  · refine (withOpts_writes _ o).1.trans ?_
    simp only [structPieces, moreFields, ha, Bool.false_eq_true, if_false, List.flatten_append, ints_one o ha,
      intPieces_flatten]
    simp [row]

theorem stdDecimal_ne_nil (o : FmtOpts) (z : Int) : stdDecimal o z ≠ [] := by
  unfold stdDecimal stdInt
  cases o.zero <;> simp [Nat.toDigits_ne_nil]

theorem stdDecimal_no_nl (o : FmtOpts) (hf : o.fill ≠ '\n') (z : Int) : '\n' ∉ stdDecimal o z := by
  have hd : '\n' ∉ Nat.toDigits 10 z.natAbs := fun h => absurd (digits_isDigit _ _ h) (by decide)
  have hr : ∀ n, '\n' ∉ List.replicate n o.fill := fun n h => hf (List.mem_replicate.mp h).2.symm
  have h0 : ∀ n, '\n' ∉ List.replicate n '0' := fun n h => absurd (List.mem_replicate.mp h).2 (by decide)
  unfold stdDecimal stdInt
  cases o.zero <;> cases o.plus <;> cases o.alternate <;> by_cases hz : 0 ≤ z <;>
    simp only [hz, decide_true, decide_false, if_true, if_false, Bool.false_eq_true, List.mem_append, hd, hr, h0,
      List.append_nil, List.nil_append, List.mem_singleton, or_false, false_or, not_false_eq_true] <;> decide

theorem layout_many (o : FmtOpts) (ha : o.alternate = true) (hf : o.fill ≠ '\n') (name : String)
    (v : List Int) :
    (tuplePieces o name.toList (listPieces o (v.map (intPieces o)))).flatten =
      manyLines name (v.map (stdDecimal o)) := by
  have entry : ∀ z, (indent (intPieces o z ++ [[',', '\n']])).flatten =
      "    ".toList ++ stdDecimal o z ++ ",\n".toList := by
    intro z
    rw [indent_flatten, List.flatten_append, intPieces_flatten,
      ind_true_append _ _ (stdDecimal_ne_nil o z) (stdDecimal_no_nl o hf z)]
    rfl
  have inner : ∀ (w : List Int) (rest : List Char),
      ind true (((w.map (intPieces o)).flatMap fun y => indent (y ++ [[',', '\n']])).flatten ++ rest) =
      (w.map (stdDecimal o)).flatMap (fun x => "        ".toList ++ x ++ ",\n".toList) ++ ind true rest := by
    intro w rest
    induction w with
    | nil => rfl
    | cons z w ih =>
      rw [List.map_cons, List.flatMap_cons, List.flatten_append, entry, List.map_cons, List.flatMap_cons]
      have h1 : "    ".toList ++ stdDecimal o z ≠ [] := by simp
      have h2 : '\n' ∉ "    ".toList ++ stdDecimal o z := by
        simp only [List.mem_append, not_or]
        exact ⟨by decide, stdDecimal_no_nl o hf z⟩
      rw [List.append_assoc, List.append_assoc, ind_true_append _ _ h1 h2]
      have h3 : ∀ t, ind false (",\n".toList ++ t) = ",\n".toList ++ ind true t := fun t => rfl
      rw [h3, ih]
      have h4 : "        ".toList = List.replicate 4 ' ' ++ "    ".toList := by decide
      rw [h4]
      simp only [List.append_assoc]
  unfold tuplePieces manyLines
  rw [ha]
  cases v with
  | nil =>
    simp only [if_true, List.flatten_append, indent_flatten, List.map_nil, listPieces]
    have h : ind true ([['[']].flatten ++ ([] : List (List Char)).flatten ++ [[']']].flatten ++
        [[',', '\n']].flatten) = "    [],\n".toList := by decide
    rw [h]
    simp
  | cons z v =>
    simp only [if_true, List.flatten_append, indent_flatten]
    have e : (listPieces o ((z :: v).map (intPieces o))).flatten =
        ['[', '\n'] ++ ((((z :: v).map (intPieces o)).flatMap fun y => indent (y ++ [[',', '\n']])).flatten ++
          [']']) := by
      unfold listPieces
      rw [ha]
      simp
    rw [e]
    have h3 : ∀ t, ind true (['[', '\n'] ++ t) = "    ".toList ++ ['[', '\n'] ++ ind true t := fun t => rfl
    have h5 : ind true ([']'] ++ [[',', '\n']].flatten) = "    ".toList ++ "],\n".toList := by decide
    rw [List.append_assoc ['[', '\n'], List.append_assoc _ [']'], h3, inner, h5]
    simp

/-- C180, layout: without `#` the entries are on one line; with `#`, each is on a line of its own (if they are not
padded with line breaks). Each entry has the text that the options ask for. -/
theorem C180_layout (o : FmtOpts) (a : Bytes) (v : List Int) :
    (o.alternate = false →
      Fmt.text (IN.fmtDebugOpts a) o = .ok (oneLine "I" (a.map fun x => stdDecimal o x.toNat)) ∧
      Fmt.text (Vect.fmtDebug v) o = .ok (oneLine "Vector" (v.map (stdDecimal o)))) ∧
    (o.alternate = true → o.fill ≠ '\n' →
      Fmt.text (IN.fmtDebugOpts a) o = .ok (manyLines "I" (a.map fun x => stdDecimal o x.toNat)) ∧
      Fmt.text (Vect.fmtDebug v) o = .ok (manyLines "Vector" (v.map (stdDecimal o)))) := by
  have e1 : Fmt.text (IN.fmtDebugOpts a) o = .ok (tuplePieces o "I".toList
      (listPieces o ((a.map fun x => (x.toNat : Int)).map (intPieces o)))).flatten := by
    rw [List.map_map]
    exact (withOpts_writes _ o).1
  have e2 : Fmt.text (Vect.fmtDebug v) o = .ok (tuplePieces o "Vector".toList
      (listPieces o (v.map (intPieces o)))).flatten := (withOpts_writes _ o).1
  constructor
  · intro ha
    rw [e1, e2, layout_one o ha, layout_one o ha, List.map_map]
    exact ⟨rfl, rfl⟩
  · intro ha hf
    rw [e1, e2, layout_many o ha hf, layout_many o ha hf, List.map_map]
    exact ⟨rfl, rfl⟩

example : Fmt.text (Vect.fmtDebug [1, -20]) {} = .ok "Vector([1, -20])".toList ∧
    Fmt.text (Vect.fmtDebug [1, -20]) { alternate := true } =
      .ok "Vector(\n    [\n        1,\n        -20,\n    ],\n)".toList := by decide +kernel

theorem stdDecimal_default (x : BitVec 8) : stdDecimal {} (x.toNat : Int) = RatM.intText (x.toNat : Int) := by
  have h : decide (0 ≤ (x.toNat : Int)) = true := by simp
  have h2 : ¬ (x.toNat : Int) < 0 := by omega
  unfold stdDecimal stdInt RatM.intText
  rw [h]
  simp [h2]

theorem writes_elems_default (a : Bytes) :
    Writes (IN.fmtElems a) (.ok (List.intercalate ", ".toList (a.map fun x => stdDecimal {} (x.toNat : Int)))) := by
  induction a with
  | nil => exact Writes.done
  | cons x xs ih =>
    cases xs with
    | nil =>
      have e : List.intercalate ", ".toList ([x].map fun x => stdDecimal {} (x.toNat : Int)) =
          RatM.intText (x.toNat : Int) := by
        rw [← stdDecimal_default]
        simp [List.intercalate]
      rw [e]
      exact Writes.prim _
    | cons y ys =>
      have h := Writes.seq_ok (Writes.prim (x.toNat : Int)) (Writes.seq_ok (Writes.write [',', ' ']) ih)
      have e : List.intercalate ", ".toList ((x :: y :: ys).map fun x => stdDecimal {} (x.toNat : Int)) =
          RatM.intText (x.toNat : Int) ++ ([',', ' '] ++
            List.intercalate ", ".toList ((y :: ys).map fun x => stdDecimal {} (x.toNat : Int))) := by
        rw [← stdDecimal_default]
        simp [List.intercalate, List.intersperse]
      rw [e]
      exact h

/-- C177 and C180 speak about the same text: the one with default options. -/
theorem C177_default (a : Bytes) :
    Fmt.text (IN.fmtDebug a) {} = Fmt.text (IN.fmtDebugOpts a) {} ∧
    Fmt.text (IN.fmtDebug a) {} = .ok (oneLine "I" (a.map fun x => Nat.toDigits 10 x.toNat)) := by
  have hw := Writes.seq_ok (Writes.write ['I']) (Writes.seq_ok (Writes.write ['('])
      (Writes.seq_ok (Writes.write ['[']) (Writes.seq_ok (writes_elems_default a)
        (Writes.seq_ok (Writes.write [']']) (Writes.write [')'])))))
  have h1 : Fmt.text (IN.fmtDebug a) {} = .ok (oneLine "I" (a.map fun x => stdDecimal {} (x.toNat : Int))) := by
    rw [IN.fmtDebug, hw.text {}]
    simp [Res.bind, oneLine]
  refine ⟨h1.trans ((C180_layout {} a []).1 rfl).1.symm, h1.trans ?_⟩
  have e : ∀ x : BitVec 8, stdDecimal {} (x.toNat : Int) = Nat.toDigits 10 x.toNat := by
    intro x
    rw [stdDecimal_default]
    unfold RatM.intText
    rw [if_neg (by omega)]
    simp
  simp only [e]

example : Fmt.text (IN.fmtDebug [7#8, 255#8]) {} = .ok "I([7, 255])".toList := by decide +kernel

end Verif
