import Verif.Props.FmtDebug

/-!
# C180: layout of matrices with line breaks
-/

namespace Verif

open Fmt

/-- `T n` is the text of a value in a line that is indented by `n`; indenting it makes it that for `n + 4`. -/
def Indents (T : Nat → List Char) : Prop :=
  ∀ n, T n ≠ [] ∧ (T n).head? ≠ some '\n' ∧ ∀ rest, ind false (T n ++ rest) = T (n + 4) ++ ind false rest

theorem Indents.first {T : Nat → List Char} (h : Indents T) (n : Nat) (rest : List Char) :
    ind true (T n ++ rest) = List.replicate 4 ' ' ++ T (n + 4) ++ ind false rest := by
  obtain ⟨h1, -, h3⟩ := h n
  have h4 := h3 rest
  obtain ⟨c, cs, e⟩ := List.exists_cons_of_ne_nil h1
  rw [e, List.cons_append] at h4 ⊢
  rw [ind] at h4 ⊢
  simp only [Bool.false_eq_true, if_false, if_true, List.nil_append] at h4 ⊢
  rw [h4, List.append_assoc]

theorem Indents.const {t : List Char} (h0 : t ≠ []) (h : '\n' ∉ t) : Indents fun _ => t :=
  fun _ => ⟨h0, fun e => h (List.mem_of_mem_head? e), fun rest => ind_false_append t rest h⟩

theorem ind_spaces (n : Nat) (s rest : List Char) (h0 : s ≠ []) :
    ind true (List.replicate n ' ' ++ s ++ rest) = List.replicate (n + 4) ' ' ++ ind false (s ++ rest) := by
  have h1 : '\n' ∉ List.replicate n ' ' := fun h => absurd (List.mem_replicate.mp h).2 (by decide)
  cases n with
  | zero =>
    obtain ⟨c, cs, rfl⟩ := List.exists_cons_of_ne_nil h0
    simp [ind]
  | succ n =>
    rw [List.append_assoc, ind_true_append _ _ (by simp) h1, ← List.replicate_add, Nat.add_comm 4]

theorem Indents.block {α : Type} (xs : List α) (T : α → Nat → List Char) (h : ∀ x ∈ xs, Indents (T x)) :
    Indents fun n => block n (xs.map fun x => T x (n + 4)) := by
  intro n
  unfold Verif.block
  cases xs with
  | nil => exact ⟨by simp, by simp, fun rest => by simp [ind]⟩
  | cons x0 xs0 =>
    generalize hx : x0 :: xs0 = xs at *
    have hne : ∀ m, (xs.map fun x => T x m) ≠ [] := by intro m; rw [← hx]; simp
    simp only [if_neg (hne _)]
    refine ⟨by simp, by simp, fun rest => ?_⟩
    have inner : ∀ (ys : List α), (∀ x ∈ ys, Indents (T x)) → ∀ r,
        ind true ((ys.map fun x => T x (n + 4)).flatMap (fun x => List.replicate (n + 4) ' ' ++ x ++ ",\n".toList) ++ r) =
        (ys.map fun x => T x (n + 4 + 4)).flatMap (fun x => List.replicate (n + 4 + 4) ' ' ++ x ++ ",\n".toList) ++
          ind true r := by
      intro ys hy r
      induction ys with
      | nil => rfl
      | cons y ys ih =>
        have h1 := hy y (by simp) (n + 4)
        rw [List.map_cons, List.flatMap_cons, List.map_cons, List.flatMap_cons]
        have e : ∀ t, ind false (",\n".toList ++ t) = ",\n".toList ++ ind true t := fun t => rfl
        rw [List.append_assoc, List.append_assoc _ ",\n".toList, ind_spaces _ _ _ h1.1, h1.2.2, e,
          ih (fun x hx => hy x (by simp [hx]))]
        simp only [List.append_assoc]
    have e1 : ∀ t, ind false ("[\n".toList ++ t) = "[\n".toList ++ ind true t := fun t => rfl
    rw [List.append_assoc, List.append_assoc, List.append_assoc, e1, inner xs h, ← List.append_assoc _ "]".toList,
      ind_spaces n _ rest (by decide), ind_false_append _ _ (by decide)]
    simp only [List.append_assoc]

theorem list_block (o : FmtOpts) (ha : o.alternate = true) {α : Type} (xs : List α) (p : α → List (List Char))
    (T : α → Nat → List Char) (h : ∀ x ∈ xs, Indents (T x) ∧ (p x).flatten = T x 0) :
    (listPieces o (xs.map p)).flatten = block 0 (xs.map fun x => T x 4) := by
  have inner : ∀ ys : List α, (∀ x ∈ ys, Indents (T x) ∧ (p x).flatten = T x 0) →
      ((ys.map p).flatMap fun y => indent (y ++ [[',', '\n']])).flatten =
      (ys.map fun x => T x 4).flatMap fun x => List.replicate (0 + 4) ' ' ++ x ++ ",\n".toList := by
    intro ys hy
    induction ys with
    | nil => rfl
    | cons y ys ih =>
      obtain ⟨h1, h2⟩ := hy y (by simp)
      rw [List.map_cons, List.flatMap_cons, List.map_cons, List.flatMap_cons, List.flatten_append, indent_flatten,
        List.flatten_append, h2, h1.first, ih (fun x hx => hy x (by simp [hx]))]
      rfl
  unfold listPieces block
  rw [ha]
  cases xs with
  | nil => rfl
  | cons x xs =>
    have := inner (x :: xs) h
    rw [List.map_cons] at this
    simp only [List.map_cons, if_true, List.flatten_append, this]
    simp

theorem tuple_block (o : FmtOpts) (ha : o.alternate = true) (name : List Char) (p : List (List Char))
    (T : Nat → List Char) (h : Indents T) (hp : p.flatten = T 0) :
    (tuplePieces o name p).flatten = name ++ "(\n    ".toList ++ T 4 ++ ",\n)".toList := by
  unfold tuplePieces
  simp only [ha, if_true, List.flatten_append, indent_flatten, hp]
  rw [h.first]
  simp [ind]

theorem field_block (n : List Char) (hn : '\n' ∉ n) (p : List (List Char)) (T : Nat → List Char) (h : Indents T)
    (hp : p.flatten = T 0) :
    (indent ([n, [':', ' ']] ++ p ++ [[',', '\n']])).flatten =
      "    ".toList ++ n ++ ": ".toList ++ T 4 ++ ",\n".toList := by
  rw [indent_flatten]
  have e : ([n, [':', ' ']] ++ p ++ [[',', '\n']]).flatten = (n ++ [':', ' ']) ++ (T 0 ++ [',', '\n']) := by
    simp [hp]
  have hn' : '\n' ∉ n ++ [':', ' '] := by
    rw [List.mem_append, not_or]
    exact ⟨hn, by decide⟩
  rw [e, ind_true_append _ _ (by simp) hn', (h 0).2.2]
  simp [ind, List.replicate]

/-- C180, layout of matrices with `#`, if they are not padded with line breaks: each entry is on a line of its own,
and so are the brackets of each row and of the matrix. -/
theorem C180_matrix_block (o : FmtOpts) (ha : o.alternate = true) (hf : o.fill ≠ '\n') (m : List (List Int))
    (v : List Int) (rows cols : Nat) :
    Fmt.text (Mat.fmtDebug m) o = .ok ("Matrix(\n    ".toList ++
      block 4 (m.map fun r => block 8 (r.map (stdDecimal o))) ++ ",\n)".toList) ∧
    Fmt.text (DynMat.fmtDebug v rows cols) o = .ok ("DynMatrix {\n    data: ".toList ++
      block 4 (v.map (stdDecimal o)) ++ ",\n    rows: ".toList ++ stdDecimal o rows ++
      ",\n    cols: ".toList ++ stdDecimal o cols ++ ",\n}".toList) := by
  have hint : ∀ z : Int, Indents (fun _ => stdDecimal o z) ∧ (intPieces o z).flatten = stdDecimal o z := fun z =>
    ⟨Indents.const (stdDecimal_ne_nil o z) (stdDecimal_no_nl o hf z), intPieces_flatten o z⟩
  have hrow : ∀ r : List Int, Indents (fun n => block n (r.map (stdDecimal o))) ∧
      (listPieces o (r.map (intPieces o))).flatten = block 0 (r.map (stdDecimal o)) := fun r =>
    ⟨Indents.block r (fun z _ => stdDecimal o z) fun z _ => (hint z).1,
      list_block o ha r (intPieces o) (fun z _ => stdDecimal o z) fun z _ => hint z⟩
  constructor
  · refine (withOpts_writes _ o).1.trans (congrArg Res.ok ?_)
    refine (tuple_block o ha _ _ (fun n => block n (m.map fun r => block (n + 4) (r.map (stdDecimal o))))
      (Indents.block m (fun r n => block n (r.map (stdDecimal o))) fun r _ => (hrow r).1)
      (list_block o ha m _ (fun r n => block n (r.map (stdDecimal o))) fun r _ => hrow r)).trans ?_
    simp
  · refine (withOpts_writes _ o).1.trans (congrArg Res.ok ?_)
    unfold structPieces
    simp only [moreFields, ha, if_true, List.flatten_append,
      field_block _ (show '\n' ∉ ['d', 'a', 't', 'a'] by decide) _ _ (hrow v).1 (hrow v).2,
      field_block _ (show '\n' ∉ ['r', 'o', 'w', 's'] by decide) _ _ (hint rows).1 (hint rows).2,
      field_block _ (show '\n' ∉ ['c', 'o', 'l', 's'] by decide) _ _ (hint cols).1 (hint cols).2]
    simp

/-- A matrix with two rows, and a dynamic one without entries, padded. -/
example :
    Fmt.text (Mat.fmtDebug [[1, -2], [3, 4]]) { alternate := true } =
      .ok ("Matrix(\n    [\n        [\n            1,\n            -2,\n        ],\n" ++
        "        [\n            3,\n            4,\n        ],\n    ],\n)").toList ∧
    Fmt.text (DynMat.fmtDebug [] 0 3) { alternate := true, width := some 3 } =
      .ok "DynMatrix {\n    data: [],\n    rows:   0,\n    cols:   3,\n}".toList := by decide +kernel

end Verif
