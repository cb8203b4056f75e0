import Verif.Props.FmtDebug
import Verif.Lemmas.BigIntText
import Verif.Model.FmtDebugHex

/-!
# C200: derived debug texts with `x?` and `X?`
-/

namespace Verif

open Fmt

/-- Hexadecimal digits, in either case. -/
def isHex (c : Char) : Bool :=
  match digitValue c with
  | some d => decide (d < 16)
  | none => false

/-- The number that the hexadecimal digits in a text form. -/
def hexValue (s : List Char) : Nat := numeral 16 (s.filter isHex)

/-- The text of an integer of `w` bits in hexadecimal: its two's complement, with the given options. -/
def stdHex (upper : Bool) (w : Nat) (o : FmtOpts) (z : Int) : List Char :=
  stdInt o true ['0', 'x']
    ((Nat.toDigits 16 (z % 2 ^ w).toNat).map (if upper then Char.toUpper else id))

private theorem rep_flatten (n : Nat) (c : Char) : (List.replicate n [c]).flatten = List.replicate n c := by
  induction n with
  | zero => rfl
  | succ n ih => rw [List.replicate_succ, List.flatten_cons, ih, List.replicate_succ]; rfl

theorem hexPieces_flatten (upper : Bool) (w : Nat) (o : FmtOpts) (z : Int) :
    (hexPieces upper w o z).flatten = stdHex upper w o z := by
  unfold hexPieces stdHex stdInt
  cases upper <;> cases o.plus <;> cases o.alternate <;> cases o.zero <;> rcases o.align with _ | _ | _ | _ <;>
    simp [rep_flatten]

private theorem digits_ok (upper : Bool) (n : Nat) :
    numeral 16 ((Nat.toDigits 16 n).map (if upper then Char.toUpper else id)) = n ∧
      ∀ c ∈ (Nat.toDigits 16 n).map (if upper then Char.toUpper else id), IsDigit 16 c := by
  refine BInt.numeral_toDigits 16 (by decide) _ (fun d hd => ?_) n
  cases upper
  · exact BInt.digitValue_digitChar d hd
  · exact BInt.digitValue_upper d hd

private theorem isHex_of {c : Char} (h : IsDigit 16 c) : isHex c = true := by
  obtain ⟨d, h1, h2⟩ := h
  simp [isHex, h1, h2]

private theorem numeral_zeros (k : Nat) (t : List Char) : numeral 16 (List.replicate k '0' ++ t) = numeral 16 t := by
  unfold numeral
  rw [List.foldl_append]
  congr 1
  induction k with
  | zero => rfl
  | succ k ih =>
    rw [List.replicate_succ, List.foldl_cons]
    exact ih

private theorem filter_rep {c : Char} (h : isHex c = false) (n : Nat) : (List.replicate n c).filter isHex = [] := by
  simp [List.filter_replicate, h]

/-- C200: the hexadecimal digits in the text of a component are those of its two's complement, with
whatever options, unless it is padded with hexadecimal digits. -/
theorem C200_tells (upper : Bool) (w : Nat) (o : FmtOpts) (hf : isHex o.fill = false) (z : Int) :
    (hexValue (stdHex upper w o z) : Int) = z % 2 ^ w := by
  obtain ⟨h1, h2⟩ := digits_ok upper (z % 2 ^ w).toNat
  have hz : 0 ≤ z % 2 ^ w := Int.emod_nonneg _ (by positivity)
  have key : hexValue (stdHex upper w o z) = (z % 2 ^ w).toNat := by
    unfold hexValue stdHex stdInt
    generalize (Nat.toDigits 16 (z % 2 ^ w).toNat).map (if upper then Char.toUpper else id) = ds at h1 h2
    have hd : ds.filter isHex = ds := List.filter_eq_self.2 fun c hc => isHex_of (h2 c hc)
    have hp : isHex '+' = false := by decide
    have hx : isHex 'x' = false := by decide
    have h0 : isHex '0' = true := by decide
    have z1 : numeral 16 ('0' :: ds) = numeral 16 ds := numeral_zeros 1 ds
    have z2 := fun k => numeral_zeros k ds
    have z3 : ∀ k, numeral 16 ('0' :: (List.replicate k '0' ++ ds)) = numeral 16 ds := fun k =>
      numeral_zeros (k + 1) ds
    cases o.plus <;> cases o.alternate <;> cases o.zero <;>
      simp [List.filter_append, filter_rep hf, List.filter_replicate, hp, hx, h0, hd, h1, z1, z2, z3]
  rw [key, Int.toNat_of_nonneg hz]

/-- C200, layout without `#`. -/
theorem C200_layout (upper : Bool) (w P : Nat) (o : FmtOpts) (ha : o.alternate = false) (a : Bytes)
    (v : List Int) (m : List (List Int)) (rows cols : Nat) :
    let row := fun r : List Int => ['['] ++ List.intercalate ", ".toList (r.map (stdHex upper w o)) ++ [']']
    Fmt.text (IN.fmtDebugHex upper a) o = .ok (oneLine "I" (a.map fun x => stdHex upper 8 o x.toNat)) ∧
    Fmt.text (Vect.fmtDebugHex upper w v) o = .ok (oneLine "Vector" (v.map (stdHex upper w o))) ∧
    Fmt.text (Mat.fmtDebugHex upper w m) o = .ok (oneLine "Matrix" (m.map row)) ∧
    Fmt.text (DynMat.fmtDebugHex upper w P v rows cols) o = .ok ("DynMatrix { data: ".toList ++ row v ++
      ", rows: ".toList ++ stdHex upper P o rows ++ ", cols: ".toList ++ stdHex upper P o cols ++ " }".toList) := by
  intro row
  have e : ∀ w, (List.flatten ∘ hexPieces upper w o) = stdHex upper w o := fun w => by
    funext z; exact hexPieces_flatten upper w o z
  have hrow : ∀ r : List Int, (listPieces o (r.map (hexPieces upper w o))).flatten = row r := fun r => by
    rw [list_one o ha, List.map_map, e]
  refine ⟨(withOpts_writes _ o).1.trans ?_, (withOpts_writes _ o).1.trans ?_, (withOpts_writes _ o).1.trans ?_,
    (withOpts_writes _ o).1.trans ?_⟩
  · have h := list_one o ha (a.map fun x => hexPieces upper 8 o x.toNat)
    have e8 : (List.flatten ∘ fun x : BitVec 8 => hexPieces upper 8 o x.toNat) =
        fun x => stdHex upper 8 o x.toNat := by
      funext x; exact hexPieces_flatten upper 8 o x.toNat
    rw [List.map_map, e8] at h
    simp only [tuplePieces, ha, Bool.false_eq_true, if_false, List.flatten_append, h]
    simp [oneLine]
  · simp only [tuplePieces, ha, Bool.false_eq_true, if_false, List.flatten_append, hrow]
    simp [oneLine, row]
  · have h := list_one o ha (m.map fun r => listPieces o (r.map (hexPieces upper w o)))
    have e' : (List.flatten ∘ fun r : List Int => listPieces o (r.map (hexPieces upper w o))) = row := by
      funext r; exact hrow r
    rw [List.map_map, e'] at h
    simp only [tuplePieces, ha, Bool.false_eq_true, if_false, List.flatten_append, h]
    simp [oneLine]
  · simp only [structPieces, moreFields, ha, Bool.false_eq_true, if_false, List.flatten_append, hrow,
      hexPieces_flatten]
    simp [row]

private theorem sep_inj (es fs : List (List Char)) (he : ∀ x ∈ es, ',' ∉ x ∧ x ≠ []) (hf : ∀ x ∈ fs, ',' ∉ x ∧ x ≠ [])
    (h : List.intercalate ", ".toList es = List.intercalate ", ".toList fs) : es = fs := by
  have split : ∀ (x y s t : List Char), ',' ∉ x → ',' ∉ y → x ++ ',' :: s = y ++ ',' :: t → x = y ∧ s = t := by
    intro x
    induction x with
    | nil =>
      intro y s t _ hy h
      cases y with
      | nil => simpa using h
      | cons c y => simp only [List.nil_append, List.cons_append, List.cons.injEq] at h; simp [← h.1] at hy
    | cons c x ih =>
      intro y s t hx hy h
      cases y with
      | nil => simp only [List.nil_append, List.cons_append, List.cons.injEq] at h; simp [h.1] at hx
      | cons d y =>
        simp only [List.cons_append, List.cons.injEq] at h
        simp only [List.mem_cons, not_or] at hx hy
        obtain ⟨rfl, rfl⟩ := ih y s t hx.2 hy.2 h.2
        exact ⟨by rw [h.1], rfl⟩
  have two : ∀ (x y : List Char) (l : List (List Char)),
      List.intercalate ", ".toList (x :: y :: l) = x ++ ',' :: (' ' :: List.intercalate ", ".toList (y :: l)) := by
    intro x y l
    simp [List.intercalate, List.intersperse]
  have one' : ∀ x : List Char, List.intercalate ", ".toList [x] = x := fun x => by simp [List.intercalate]
  have none' : List.intercalate ", ".toList ([] : List (List Char)) = [] := by simp [List.intercalate]
  induction es generalizing fs with
  | nil =>
    cases fs with
    | nil => rfl
    | cons y l =>
      have := hf y (by simp)
      cases l with
      | nil => rw [none', one'] at h; exact absurd h.symm this.2
      | cons z l => rw [none', two] at h; simp at h
  | cons x k ih =>
    have hx := he x (by simp)
    cases fs with
    | nil =>
      cases k with
      | nil => rw [none', one'] at h; exact absurd h hx.2
      | cons z k => rw [none', two] at h; simp at h
    | cons y l =>
      have hy := hf y (by simp)
      cases k with
      | nil =>
        cases l with
        | nil => rw [one', one'] at h; rw [h]
        | cons z l => rw [one', two] at h; rw [h] at hx; simp at hx
      | cons u k =>
        cases l with
        | nil => rw [one', two] at h; rw [← h] at hy; simp at hy
        | cons z l =>
          rw [two, two] at h
          obtain ⟨rfl, h2⟩ := split _ _ _ _ hx.1 hy.1 h
          have := ih (z :: l) (fun x hx => he x (by simp [hx])) (fun x hx => hf x (by simp [hx])) (List.cons.inj h2).2
          rw [this]

/-- The values of a primitive integer type. -/
def IntRange (signed : Bool) (w : Nat) (z : Int) : Prop :=
  if signed then -(2 ^ (w - 1) : Int) ≤ z ∧ z < 2 ^ (w - 1) else 0 ≤ z ∧ z < 2 ^ w

private theorem range_inj {signed : Bool} {w : Nat} (hw : 0 < w) {x y : Int} (hx : IntRange signed w x)
    (hy : IntRange signed w y) (h : x % 2 ^ w = y % 2 ^ w) : x = y := by
  obtain ⟨k, hk⟩ := Int.ModEq.dvd (show x ≡ y [ZMOD 2 ^ w] from h)
  have hp : (2 : Int) ^ w = 2 * 2 ^ (w - 1) := by rw [← pow_succ', Nat.sub_add_cancel hw]
  have hpos : (0 : Int) < 2 ^ (w - 1) := by positivity
  have hlt : -(2 ^ w : Int) < y - x ∧ y - x < 2 ^ w := by
    cases signed <;> simp only [IntRange, Bool.false_eq_true, if_false, if_true] at hx hy <;> constructor <;> omega
  have : k = 0 := by
    rw [hk] at hlt
    have h2 : (0 : Int) < 2 ^ w := by positivity
    have a1 : k < 1 := by
      by_contra hc
      nlinarith [hlt.2]
    have a2 : -1 < k := by
      by_contra hc
      nlinarith [hlt.1]
    omega
  rw [this] at hk
  omega

private theorem line_inj (upper signed : Bool) (w : Nat) (hw : 0 < w) (o : FmtOpts) (ha : o.alternate = false)
    (hf : isHex o.fill = false) (hc : o.fill ≠ ',') (name : String) (a b : List Int)
    (hA : ∀ x ∈ a, IntRange signed w x) (hB : ∀ x ∈ b, IntRange signed w x)
    (h : oneLine name (a.map (stdHex upper w o)) = oneLine name (b.map (stdHex upper w o))) : a = b := by
  unfold oneLine at h
  replace h := List.append_cancel_left (List.append_cancel_right h)
  have entry : ∀ z, ',' ∉ stdHex upper w o z ∧ stdHex upper w o z ≠ [] := by
    intro z
    obtain ⟨-, h2⟩ := digits_ok upper (z % 2 ^ w).toNat
    have hd : ',' ∉ (Nat.toDigits 16 (z % 2 ^ w).toNat).map (if upper then Char.toUpper else id) := fun hm =>
      absurd (isHex_of (h2 _ hm)) (by decide)
    have hn : (Nat.toDigits 16 (z % 2 ^ w).toNat).map (if upper then Char.toUpper else id) ≠ [] := by
      simp [Nat.toDigits_ne_nil]
    unfold stdHex stdInt
    generalize (Nat.toDigits 16 (z % 2 ^ w).toNat).map (if upper then Char.toUpper else id) = ds at hd hn
    have hr : ∀ n, ',' ∉ List.replicate n o.fill := fun n hm => hc (List.mem_replicate.mp hm).2.symm
    have h0 : ∀ n, ',' ∉ List.replicate n '0' := fun n hm => absurd (List.mem_replicate.mp hm).2 (by decide)
    rw [ha]
    cases o.plus <;> cases o.zero <;>
      simp only [if_true, if_false, Bool.false_eq_true, List.mem_append, hd, hr, h0, List.append_nil, List.nil_append,
        List.mem_singleton, or_false, false_or, not_false_eq_true, ne_eq, List.append_eq_nil_iff, hn, and_false,
        false_and, true_and, and_true] <;> decide
  replace h := sep_inj _ _ (fun x hx => by obtain ⟨z, _, rfl⟩ := List.mem_map.mp hx; exact entry z)
    (fun x hx => by obtain ⟨z, _, rfl⟩ := List.mem_map.mp hx; exact entry z) h
  replace h := congrArg (List.map fun s => (hexValue s : Int)) h
  rw [List.map_map, List.map_map] at h
  have e : ((fun s => (hexValue s : Int)) ∘ stdHex upper w o) = fun z => z % 2 ^ w := by
    funext z; exact C200_tells upper w o hf z
  rw [e] at h
  clear entry
  induction a generalizing b with
  | nil => cases b with
    | nil => rfl
    | cons y b => simp at h
  | cons x a ih => cases b with
    | nil => simp at h
    | cons y b =>
      simp only [List.map_cons, List.cons.injEq] at h
      rw [range_inj hw (hA x (by simp)) (hB y (by simp)) h.1,
        ih b (fun z hz => hA z (by simp [hz])) (fun z hz => hB z (by simp [hz])) h.2]

/-- C200, consequences: values of `I<N>`, and vectors of one primitive integer type, with the same text are equal. -/
theorem C200_injective (upper signed : Bool) (w : Nat) (hw : 0 < w) (o : FmtOpts) (ha : o.alternate = false)
    (hf : isHex o.fill = false) (hc : o.fill ≠ ',') :
    (∀ a b : Bytes, Fmt.text (IN.fmtDebugHex upper a) o = Fmt.text (IN.fmtDebugHex upper b) o ↔ a = b) ∧
    (∀ a b : List Int, (∀ x ∈ a, IntRange signed w x) → (∀ x ∈ b, IntRange signed w x) →
      (Fmt.text (Vect.fmtDebugHex upper w a) o = Fmt.text (Vect.fmtDebugHex upper w b) o ↔ a = b)) := by
  refine ⟨fun a b => ⟨fun h => ?_, fun h => by rw [h]⟩, fun a b hA hB => ⟨fun h => ?_, fun h => by rw [h]⟩⟩
  · rw [(C200_layout upper w 64 o ha a [] [] 0 0).1, (C200_layout upper w 64 o ha b [] [] 0 0).1, Res.ok.injEq] at h
    have hr : ∀ (c : Bytes), ∀ x ∈ c.map (fun x => (x.toNat : Int)), IntRange false 8 x := by
      intro c x hx
      obtain ⟨y, _, rfl⟩ := List.mem_map.mp hx
      have := y.isLt
      simp only [IntRange, Bool.false_eq_true, if_false]
      omega
    have := line_inj upper false 8 (by decide) o ha hf hc "I" (a.map fun x => (x.toNat : Int))
      (b.map fun x => (x.toNat : Int)) (hr a) (hr b) (by rw [List.map_map, List.map_map]; exact h)
    exact List.map_injective_iff.mpr (fun x y hxy => BitVec.eq_of_toNat_eq (by simpa using hxy)) this
  · rw [(C200_layout upper w 64 o ha [] a [] 0 0).2.1, (C200_layout upper w 64 o ha [] b [] 0 0).2.1,
      Res.ok.injEq] at h
    exact line_inj upper signed w hw o ha hf hc "Vector" a b hA hB h

private theorem hex_many (o : FmtOpts) (ha : o.alternate = true) (p : Int → List (List Char)) (t : Int → List Char)
    (hp : ∀ z, (p z).flatten = t z) (hne : ∀ z, t z ≠ []) (hnl : ∀ z, '\n' ∉ t z) (name : String) (v : List Int) :
    (tuplePieces o name.toList (listPieces o (v.map p))).flatten = manyLines name (v.map t) := by
  have entry : ∀ z, (indent (p z ++ [[',', '\n']])).flatten =
      "    ".toList ++ t z ++ ",\n".toList := by
    intro z
    rw [indent_flatten, List.flatten_append, hp,
      ind_true_append _ _ (hne z) (hnl z)]
    rfl
  have inner : ∀ (w : List Int) (rest : List Char),
      ind true (((w.map p).flatMap fun y => indent (y ++ [[',', '\n']])).flatten ++ rest) =
      (w.map t).flatMap (fun x => "        ".toList ++ x ++ ",\n".toList) ++ ind true rest := by
    intro w rest
    induction w with
    | nil => rfl
    | cons z w ih =>
      rw [List.map_cons, List.flatMap_cons, List.flatten_append, entry, List.map_cons, List.flatMap_cons]
      have h1 : "    ".toList ++ t z ≠ [] := by simp
      have h2 : '\n' ∉ "    ".toList ++ t z := by
        simp only [List.mem_append, not_or]
        exact ⟨by decide, hnl z⟩
      rw [List.append_assoc, List.append_assoc, ind_true_append _ _ h1 h2]
      have h3 : ∀ t, ind false (",\n".toList ++ t) = ",\n".toList ++ ind true t := fun t => rfl
      rw [h3, ih]
      have h4 : "        ".toList = List.replicate 4 ' ' ++ "    ".toList := by decide
      rw [h4]
      simp only [List.append_assoc]
  unfold tuplePieces manyLines
  rw [ha]
  cases v with
  | nil =>
    simp only [if_true, List.flatten_append, indent_flatten, List.map_nil, listPieces]
    have h : ind true ([['[']].flatten ++ ([] : List (List Char)).flatten ++ [[']']].flatten ++
        [[',', '\n']].flatten) = "    [],\n".toList := by decide
    rw [h]
    simp
  | cons z v =>
    simp only [if_true, List.flatten_append, indent_flatten]
    have e : (listPieces o ((z :: v).map p)).flatten =
        ['[', '\n'] ++ ((((z :: v).map p).flatMap fun y => indent (y ++ [[',', '\n']])).flatten ++
          [']']) := by
      unfold listPieces
      rw [ha]
      simp
    rw [e]
    have h3 : ∀ t, ind true (['[', '\n'] ++ t) = "    ".toList ++ ['[', '\n'] ++ ind true t := fun t => rfl
    have h5 : ind true ([']'] ++ [[',', '\n']].flatten) = "    ".toList ++ "],\n".toList := by decide
    rw [List.append_assoc ['[', '\n'], List.append_assoc _ [']'], h3, inner, h5]
    simp

/-- C200, layout with `#`: each component is on a line of its own, with the prefix `0x`. -/
theorem C200_block (upper : Bool) (w : Nat) (o : FmtOpts) (ha : o.alternate = true) (hf : o.fill ≠ '\n')
    (a : Bytes) (v : List Int) :
    Fmt.text (IN.fmtDebugHex upper a) o = .ok (manyLines "I" (a.map fun x => stdHex upper 8 o x.toNat)) ∧
    Fmt.text (Vect.fmtDebugHex upper w v) o = .ok (manyLines "Vector" (v.map (stdHex upper w o))) := by
  have entry : ∀ w z, stdHex upper w o z ≠ [] ∧ '\n' ∉ stdHex upper w o z := by
    intro w z
    obtain ⟨-, h2⟩ := digits_ok upper (z % 2 ^ w).toNat
    have hd : '\n' ∉ (Nat.toDigits 16 (z % 2 ^ w).toNat).map (if upper then Char.toUpper else id) := fun hm =>
      absurd (isHex_of (h2 _ hm)) (by decide)
    have hn : (Nat.toDigits 16 (z % 2 ^ w).toNat).map (if upper then Char.toUpper else id) ≠ [] := by
      simp [Nat.toDigits_ne_nil]
    unfold stdHex stdInt
    generalize (Nat.toDigits 16 (z % 2 ^ w).toNat).map (if upper then Char.toUpper else id) = ds at hd hn
    have hr : ∀ n, '\n' ∉ List.replicate n o.fill := fun n hm => hf (List.mem_replicate.mp hm).2.symm
    have h0 : ∀ n, '\n' ∉ List.replicate n '0' := fun n hm => absurd (List.mem_replicate.mp hm).2 (by decide)
    rw [ha]
    cases o.plus <;> cases o.zero <;>
      simp only [if_true, if_false, Bool.false_eq_true, List.mem_append, hd, hr, h0, List.append_nil, List.nil_append,
        or_false, false_or, not_false_eq_true, ne_eq, List.append_eq_nil_iff, hn, and_false,
        false_and, true_and, and_true] <;> decide
  constructor
  · have h := hex_many o ha (hexPieces upper 8 o) (stdHex upper 8 o) (hexPieces_flatten upper 8 o)
      (fun z => (entry 8 z).1) (fun z => (entry 8 z).2) "I" (a.map fun x => (x.toNat : Int))
    rw [List.map_map, List.map_map] at h
    exact (withOpts_writes _ o).1.trans (congrArg Res.ok h)
  · exact (withOpts_writes _ o).1.trans (congrArg Res.ok (hex_many o ha _ _ (hexPieces_flatten upper w o)
      (fun z => (entry w z).1) (fun z => (entry w z).2) "Vector" v))

/-- C200, delivery. -/
theorem C200_delivers (upper : Bool) (w P : Nat) (o : FmtOpts) (a : Bytes) (v : List Int) (m : List (List Int))
    (rows cols : Nat) :
    Delivers ((IN.fmtDebugHex upper a).withOpts o) (Fmt.text (IN.fmtDebugHex upper a) o) ∧
    Delivers ((Vect.fmtDebugHex upper w v).withOpts o) (Fmt.text (Vect.fmtDebugHex upper w v) o) ∧
    Delivers ((Mat.fmtDebugHex upper w m).withOpts o) (Fmt.text (Mat.fmtDebugHex upper w m) o) ∧
    Delivers ((DynMat.fmtDebugHex upper w P v rows cols).withOpts o)
      (Fmt.text (DynMat.fmtDebugHex upper w P v rows cols) o) :=
  ⟨(withOpts_writes _ o).2, (withOpts_writes _ o).2, (withOpts_writes _ o).2, (withOpts_writes _ o).2⟩

/-- A negative component of 8 bits, and the same padded and with capitals. -/
example : Fmt.text (Vect.fmtDebugHex false 8 [-2, 31]) {} = .ok "Vector([fe, 1f])".toList ∧
    Fmt.text (Vect.fmtDebugHex true 8 [-2, 31]) { width := some 4, fill := '_' } = .ok "Vector([__FE, __1F])".toList ∧
    Fmt.text (Vect.fmtDebugHex false 8 [-2]) { alternate := true } =
      .ok "Vector(\n    [\n        0xfe,\n    ],\n)".toList := by decide +kernel

example : isHex '_' = false ∧ stdHex true 8 { width := some 6, fill := '_' } (-2) = "____FE".toList ∧
    hexValue "____FE".toList = 254 := by decide +kernel

/-- Vectors of `i8`. -/
example : Fmt.text (Vect.fmtDebugHex false 8 [-2, 1]) {} ≠ Fmt.text (Vect.fmtDebugHex false 8 [2, 1]) {} := fun h =>
  absurd (((C200_injective false true 8 (by decide) {} rfl (by decide) (by decide)).2 [-2, 1] [2, 1]
    (by simp [IntRange]) (by simp [IntRange])).1 h) (by decide)

/-- The texts of a vector of `i8` and one of `u8` may be the same. -/
example : Fmt.text (Vect.fmtDebugHex false 8 [-2]) {} = Fmt.text (Vect.fmtDebugHex false 8 [254]) {} ∧
    IntRange true 8 (-2) ∧ IntRange false 8 254 := by
  refine ⟨by decide +kernel, ?_, ?_⟩ <;> simp [IntRange]

end Verif
