import Verif.Spec.DropIn
import Verif.Lemmas.UIntPtr
import Verif.Props.UInt
import Verif.Props.IInt
import Verif.Props.MulExact
import Verif.Props.ShiftExact
import Verif.Props.DivExact
import Verif.Props.IntExact

/-!
# C197: `U<N>` and `I<N>` on targets of each pointer width
-/

namespace Verif

open Word WInt

/-- The operators of `U<N>` where `usize` has `p` bits. -/
def UN.wordOpsAt (p : Nat) (m : Mode) : Word.Ops Bytes :=
  { UN.wordOps m with div := UN.divAt p m, rem := UN.remAt p m, shl := UN.shlAt p m, shr := UN.shrAt p m }

/-- The operators of `I<N>` where `usize` has `p` bits. -/
def IN.wordOpsAt (p : Nat) (m : Mode) : Word.Ops Bytes :=
  { IN.wordOps m with div := IN.divAt p m, rem := IN.remAt p m }

/-- `P` holds of every literal. -/
def Word.Expr.Lits {α : Type} (P : α → Prop) : Expr α → Prop
  | .lit a => P a
  | .add p q | .sub p q | .mul p q | .div p q | .rem p q | .and p q | .or p q | .xor p q => p.Lits P ∧ q.Lits P
  | .not p | .shl p _ | .shr p _ => p.Lits P

private theorem maskAt_64 (m : Mode) (n k : Nat) : WInt.maskShift 64 m n k = Verif.maskShift m n k := by
  unfold WInt.maskShift Verif.maskShift WInt.leadingZeros Verif.leadingZeros usizeSize
  rfl

private theorem shlWrapping_64 (m : Mode) (a : Bytes) (k : Nat) :
    Ptr.shlWrapping 64 m a k = ElementShl.shlWrapping m a k := by
  unfold Ptr.shlWrapping ElementShl.shlWrapping
  rw [maskAt_64]

/-- With 64-bit pointers this is the model the other theorems are about. -/
theorem C197_at_64 (m : Mode) (fuel : Nat) (a b : Bytes) (k : Nat) :
    (UN.wordOpsAt 64 m = UN.wordOps m ∧ IN.wordOpsAt 64 m = IN.wordOps m) ∧
    UN.checkedDivAt 64 m a b = UN.checkedDiv m a b ∧
    UN.shlUAt 64 m a b = UN.shlU m a b ∧ UN.shrUAt 64 m a b = UN.shrU m a b ∧
    UN.powAt 64 m a b = UN.pow m a b ∧ UN.displayAt 64 m fuel a = UN.display m fuel a := by
  have hm : ∀ (a : Bytes) k, Ptr.shlWrapping 64 m a k = ElementShl.shlWrapping m a k := shlWrapping_64 m
  have hi : ∀ (a : Bytes) k, Ptr.innerShr 64 m a k = ElementShr.inner m a k := fun a k => rfl
  have hd : ∀ a b c : Bytes, Ptr.divLongOverflowing 64 m a b c = BitwiseDiv.divLongOverflowing m a b c := by
    intro a b c
    unfold Ptr.divLongOverflowing BitwiseDiv.divLongOverflowing
    simp only [hm]
  have hr : ∀ a b c : Bytes, Ptr.remLongOverflowing 64 m a b c = BitwiseDiv.remLongOverflowing m a b c := by
    intro a b c
    unfold Ptr.remLongOverflowing BitwiseDiv.remLongOverflowing
    simp only [hm]
  have hsl : ∀ a k, UN.shlAt 64 m a k = UN.shl m a k := by
    intro a k
    unfold UN.shlAt UN.shl
    rw [hm]
    rfl
  have hsr : ∀ a k, UN.shrAt 64 m a k = UN.shr m a k := by
    intro a k
    unfold UN.shrAt UN.shr Ptr.shrChecked ElementShr.shrChecked Ptr.shrWrapping ElementShr.shrWrapping
    simp only [hi, maskAt_64]
    rfl
  have hcd : ∀ a b, UN.checkedDivAt 64 m a b = UN.checkedDiv m a b := by
    intro a b
    unfold UN.checkedDivAt UN.checkedDiv BitwiseDiv.divLongChecked
    rw [hd]
  have hdiv : ∀ a b, UN.divAt 64 m a b = UN.div m a b := by
    intro a b
    unfold UN.divAt UN.div BitwiseDiv.divLongWrapping
    rw [hd, hcd]
    rfl
  have hrem : ∀ a b, UN.remAt 64 m a b = UN.rem m a b := by
    intro a b
    unfold UN.remAt UN.rem BitwiseDiv.remLongChecked
    rw [hr]
  have hu : ∀ v, UN.toUsizeAt 64 v = UN.toUsize v := fun v => rfl
  have hw : ∀ base fuel s ds, UN.writeLoopAt 64 m base fuel s ds = UN.writeLoop m base fuel s ds := by
    intro base fuel
    induction fuel with
    | zero =>
      intro s ds
      rw [UN.writeLoopAt, UN.writeLoop]
    | succ fuel ih =>
      intro s ds
      rw [UN.writeLoopAt, UN.writeLoop]
      simp only [hrem, hdiv, ih]
  refine ⟨⟨?_, ?_⟩, hcd a b, ?_, ?_, ?_, ?_⟩
  · unfold UN.wordOpsAt
    rw [funext₂ hdiv, funext₂ hrem, funext₂ hsl, funext₂ hsr]
    rfl
  · unfold IN.wordOpsAt
    have e1 : IN.divAt 64 m = IN.div m := by
      funext a b
      unfold IN.divAt IN.div BitwiseDiv.divLongWrapping
      simp only [hd]
    have e2 : IN.remAt 64 m = IN.rem m := by
      funext a b
      unfold IN.remAt IN.rem BitwiseDiv.remLongWrapping
      simp only [hr]
    rw [e1, e2]
    rfl
  · unfold UN.shlUAt UN.shlU
    simp only [hsl, hu]
  · unfold UN.shrUAt UN.shrU
    simp only [hsr, hu]
  · unfold UN.powAt UN.pow
    simp only [hu]
  · unfold UN.displayAt UN.display UN.writeBaseAt UN.writeBase
    simp only [hw]

private theorem len_eq {n : Nat} {a b : Bytes} (ha : a.length = n) (hb : b.length = n) : b.length = a.length :=
  hb.trans ha.symm

section
variable {p : Nat} [hp : PtrWidth p] {n : Nat}

private theorem uops_eq (h0 : 0 < n) (hn : 8 * n < 2 ^ p) (m : Mode) (a b : Bytes) (k : Nat) (ha : a.length = n)
    (hb : b.length = n) :
    UN.divAt p m a b = UN.div m a b ∧ UN.remAt p m a b = UN.rem m a b ∧
    UN.checkedDivAt p m a b = UN.checkedDiv m a b ∧
    UN.shlAt p m a k = UN.shl m a k ∧ UN.shrAt p m a k = UN.shr m a k := by
  have hd := Ptr.divLongOverflowing_eq (p := p) m (by norm_num : 0 < 8) a b (len_eq ha hb) (by omega) (by omega)
  have hr := Ptr.remLongOverflowing_eq (p := p) m (by norm_num : 0 < 8) a b (len_eq ha hb) (by omega) (by omega)
  have hc : UN.checkedDivAt p m a b = UN.checkedDiv m a b := by
    unfold UN.checkedDivAt UN.checkedDiv BitwiseDiv.divLongChecked
    rw [hd]
  refine ⟨?_, ?_, hc, ?_, ?_⟩
  · cases m with
    | debug => unfold UN.divAt UN.div; simp only; rw [hc]; rfl
    | release => unfold UN.divAt UN.div BitwiseDiv.divLongWrapping; simp only; rw [hd]
  · unfold UN.remAt UN.rem BitwiseDiv.remLongChecked
    rw [hr]
  · cases m with
    | debug => rfl
    | release =>
      unfold UN.shlAt UN.shl
      exact Ptr.shlWrapping_eq _ a k (by omega) (by omega)
  · unfold UN.shrAt UN.shr
    cases m with
    | debug => simp only; rw [Ptr.shrChecked_eq (p := p) _ (by norm_num) a k (by omega)]
    | release => exact Ptr.shrWrapping_eq _ (by norm_num) a k (by omega) (by omega) (by omega)

/-- Two sets of operators that agree on the values satisfying `P`, which they preserve. -/
private structure Same {α : Type} (P : α → Prop) (o o' : Ops α) : Prop where
  bin : ∀ x y, P x → P y → o.add x y = o'.add x y ∧ o.sub x y = o'.sub x y ∧ o.mul x y = o'.mul x y ∧
    o.div x y = o'.div x y ∧ o.rem x y = o'.rem x y ∧ o.and x y = o'.and x y ∧ o.or x y = o'.or x y ∧
    o.xor x y = o'.xor x y
  un : ∀ x k, P x → o.not x = o'.not x ∧ o.shl x k = o'.shl x k ∧ o.shr x k = o'.shr x k
  keep : ∀ x y z, P x → P y → o'.add x y = .ok z ∨ o'.sub x y = .ok z ∨ o'.mul x y = .ok z ∨ o'.div x y = .ok z ∨
    o'.rem x y = .ok z ∨ o'.and x y = .ok z ∨ o'.or x y = .ok z ∨ o'.xor x y = .ok z → P z
  keep1 : ∀ x k z, P x → o'.not x = .ok z ∨ o'.shl x k = .ok z ∨ o'.shr x k = .ok z → P z

private theorem bin_same {α : Type} {P : α → Prop} {r1 r1' r2 r2' : Res α} {f g : α → α → Res α}
    (h1 : r1 = r1' ∧ ∀ z, r1' = .ok z → P z) (h2 : r2 = r2' ∧ ∀ z, r2' = .ok z → P z)
    (hf : ∀ x y, P x → P y → f x y = g x y) (hg : ∀ x y z, P x → P y → g x y = .ok z → P z) :
    (r1.bind fun x => r2.bind fun y => f x y) = (r1'.bind fun x => r2'.bind fun y => g x y) ∧
    ∀ z, (r1'.bind fun x => r2'.bind fun y => g x y) = .ok z → P z := by
  obtain ⟨rfl, k1⟩ := h1
  obtain ⟨rfl, k2⟩ := h2
  cases r1 with
  | ok x =>
    cases r2 with
    | ok y => exact ⟨hf x y (k1 x rfl) (k2 y rfl), fun z h => hg x y z (k1 x rfl) (k2 y rfl) h⟩
    | panic => exact ⟨rfl, nofun⟩
    | hang => exact ⟨rfl, nofun⟩
  | panic => exact ⟨rfl, nofun⟩
  | hang => exact ⟨rfl, nofun⟩

private theorem un_same {α : Type} {P : α → Prop} {r1 r1' : Res α} {f g : α → Res α}
    (h1 : r1 = r1' ∧ ∀ z, r1' = .ok z → P z)
    (hf : ∀ x, P x → f x = g x) (hg : ∀ x z, P x → g x = .ok z → P z) :
    (r1.bind fun x => f x) = (r1'.bind fun x => g x) ∧ ∀ z, (r1'.bind fun x => g x) = .ok z → P z := by
  obtain ⟨rfl, k1⟩ := h1
  cases r1 with
  | ok x => exact ⟨hf x (k1 x rfl), fun z h => hg x z (k1 x rfl) h⟩
  | panic => exact ⟨rfl, nofun⟩
  | hang => exact ⟨rfl, nofun⟩

private theorem run_same {α : Type} {P : α → Prop} {o o' : Ops α} (s : Same P o o') (e : Expr α) (he : e.Lits P) :
    e.run o = e.run o' ∧ ∀ z, e.run o' = .ok z → P z := by
  induction e with
  | lit a => exact ⟨rfl, fun z h => by cases h; exact he⟩
  | add p q h1 h2 =>
    exact bin_same (h1 he.1) (h2 he.2) (fun x y a b => (s.bin x y a b).1)
      fun x y z a b h => s.keep x y z a b (.inl h)
  | sub p q h1 h2 =>
    exact bin_same (h1 he.1) (h2 he.2) (fun x y a b => (s.bin x y a b).2.1)
      fun x y z a b h => s.keep x y z a b (.inr (.inl h))
  | mul p q h1 h2 =>
    exact bin_same (h1 he.1) (h2 he.2) (fun x y a b => (s.bin x y a b).2.2.1)
      fun x y z a b h => s.keep x y z a b (.inr (.inr (.inl h)))
  | div p q h1 h2 =>
    exact bin_same (h1 he.1) (h2 he.2) (fun x y a b => (s.bin x y a b).2.2.2.1)
      fun x y z a b h => s.keep x y z a b (.inr (.inr (.inr (.inl h))))
  | rem p q h1 h2 =>
    exact bin_same (h1 he.1) (h2 he.2) (fun x y a b => (s.bin x y a b).2.2.2.2.1)
      fun x y z a b h => s.keep x y z a b (.inr (.inr (.inr (.inr (.inl h)))))
  | and p q h1 h2 =>
    exact bin_same (h1 he.1) (h2 he.2) (fun x y a b => (s.bin x y a b).2.2.2.2.2.1)
      fun x y z a b h => s.keep x y z a b (.inr (.inr (.inr (.inr (.inr (.inl h))))))
  | or p q h1 h2 =>
    exact bin_same (h1 he.1) (h2 he.2) (fun x y a b => (s.bin x y a b).2.2.2.2.2.2.1)
      fun x y z a b h => s.keep x y z a b (.inr (.inr (.inr (.inr (.inr (.inr (.inl h)))))))
  | xor p q h1 h2 =>
    exact bin_same (h1 he.1) (h2 he.2) (fun x y a b => (s.bin x y a b).2.2.2.2.2.2.2)
      fun x y z a b h => s.keep x y z a b (.inr (.inr (.inr (.inr (.inr (.inr (.inr h)))))))
  | not p h1 => exact un_same (h1 he) (fun x a => (s.un x 0 a).1) fun x z a h => s.keep1 x 0 z a (.inl h)
  | shl p k h1 => exact un_same (h1 he) (fun x a => (s.un x k a).2.1) fun x z a h => s.keep1 x k z a (.inr (.inl h))
  | shr p k h1 => exact un_same (h1 he) (fun x a => (s.un x k a).2.2) fun x z a h => s.keep1 x k z a (.inr (.inr h))

private theorem bits_len {a b : Bytes} (h : b.length = a.length) (f : BitVec 8 → BitVec 8 → BitVec 8) :
    (List.zipWith f a b).length = a.length := by
  rw [List.length_zipWith, h, Nat.min_self]

private theorem ok_len {r : Res Bytes} {x z : Bytes} {n : Nat} (h : r = .ok z) (h1 : r = .ok x)
    (h2 : x.length = n) : z.length = n := by
  rw [h1] at h; cases h; exact h2

private theorem same_u (h0 : 0 < n) (hn : 8 * n < 2 ^ p) (h60 : n < 2 ^ 60) (m : Mode) :
    Same (fun a : Bytes => a.length = n) (UN.wordOpsAt p m) (UN.wordOps m) where
  bin a b ha hb := by
    obtain ⟨h1, h2, _, _, _⟩ := uops_eq (p := p) h0 hn m a b 0 ha hb
    exact ⟨rfl, rfl, rfl, h1, h2, rfl, rfl, rfl⟩
  un a k ha := by
    obtain ⟨_, _, _, h4, h5⟩ := uops_eq (p := p) h0 hn m a a k ha ha
    exact ⟨rfl, h4, h5⟩
  keep a b z ha hb h := by
    have hl := len_eq ha hb
    have hne : a ≠ [] := List.length_pos_iff.mp (by omega)
    obtain ⟨a1, a2, s1, s2⟩ := C27_checked_add_sub a b hl
    obtain ⟨q, r, d1, d2, _, d4, d5, _⟩ := C30_div_exact_partial m a b hl hne (by omega)
    obtain ⟨x, m1, _, m3, m4, m5⟩ := C28_checked_mul_exact_partial a b
    rw [← ha]
    rcases h with h | h | h | h | h | h | h | h
    · change UN.add m a b = .ok z at h
      rcases Nat.lt_or_ge (val a + val b) (256 ^ a.length) with hv | hv
      · obtain ⟨x, _, x2, _, x4, x5⟩ := a1 hv
        cases m <;> exact ok_len h (by assumption) x2
      · obtain ⟨_, x2, x, x3, x4, _⟩ := a2 hv
        cases m
        · rw [x2] at h; cases h
        · exact ok_len h x3 x4
    · change UN.sub m a b = .ok z at h
      rcases Nat.lt_or_ge (val a) (val b) with hv | hv
      · obtain ⟨_, x2, x, x3, x4, _⟩ := s2 hv
        cases m
        · rw [x2] at h; cases h
        · exact ok_len h x3 x4
      · obtain ⟨x, _, x2, _, x4, x5⟩ := s1 hv
        cases m <;> exact ok_len h (by assumption) x2
    · change UN.mul m a b = .ok z at h
      cases m
      · by_cases hc : RowCarries 8 a.length (val a) (val b)
        · rw [(m4 hc).2] at h; cases h
        · exact ok_len h (m5 hc).2 m1
      · exact ok_len h m3 m1
    · exact ok_len h d1 d4
    · exact ok_len h d2 d5
    · exact ok_len h rfl (bits_len hl _)
    · exact ok_len h rfl (bits_len hl _)
    · exact ok_len h rfl (bits_len hl _)
  keep1 a k z ha h := by
    have hne : a ≠ [] := List.length_pos_iff.mp (by omega)
    obtain ⟨s1, s2, s3, s4, ⟨x, s5, s6, _⟩, ⟨y, s7, s8, _⟩⟩ := C34_shifts_exact_partial a k hne (by omega)
    rw [← ha]
    rcases h with h | h | h
    · exact ok_len h rfl (List.length_map _)
    · change UN.shl m a k = .ok z at h
      cases m
      · rcases Nat.lt_or_ge (8 * a.length) k with hv | hv
        · rw [s2 hv] at h; cases h
        · obtain ⟨x, x1, x2, _⟩ := s1 hv
          exact ok_len h x1 x2
      · exact ok_len h s5 s6
    · change UN.shr m a k = .ok z at h
      cases m
      · rcases Nat.lt_or_ge k (8 * a.length) with hv | hv
        · obtain ⟨x, x1, x2, _⟩ := s3 hv
          exact ok_len h x1 x2
        · rw [s4 hv] at h; cases h
      · exact ok_len h s7 s8

private theorem abs_len {a x : Bytes} (h : IN.abs a = .ok x) : x.length = a.length := by
  unfold IN.abs at h
  cases hl : a.getLast? with
  | none => rw [hl] at h; cases h
  | some l =>
    rw [hl] at h
    cases h
    have : a ≠ [] := by rintro rfl; cases hl
    have := List.length_pos_iff.mpr this
    rw [List.length_append, List.length_dropLast]
    simp only [List.length_cons, List.length_nil]
    omega

private theorem iops_eq (h0 : 0 < n) (hn : 8 * n < 2 ^ p) (m : Mode) (a b : Bytes) (ha : a.length = n)
    (hb : b.length = n) : IN.divAt p m a b = IN.div m a b ∧ IN.remAt p m a b = IN.rem m a b := by
  unfold IN.divAt IN.div IN.remAt IN.rem BitwiseDiv.divLongWrapping BitwiseDiv.remLongWrapping
  cases IN.isNegative a with
  | panic => exact ⟨Eq.refl Res.panic, Eq.refl Res.panic⟩
  | hang => exact ⟨Eq.refl Res.hang, Eq.refl Res.hang⟩
  | ok na =>
    cases IN.isNegative b with
    | panic => exact ⟨Eq.refl Res.panic, Eq.refl Res.panic⟩
    | hang => exact ⟨Eq.refl Res.hang, Eq.refl Res.hang⟩
    | ok nb =>
      cases hx : IN.abs a with
      | panic => exact ⟨Eq.refl Res.panic, Eq.refl Res.panic⟩
      | hang => exact ⟨Eq.refl Res.hang, Eq.refl Res.hang⟩
      | ok x =>
        cases hy : IN.abs b with
        | panic => exact ⟨Eq.refl Res.panic, Eq.refl Res.panic⟩
        | hang => exact ⟨Eq.refl Res.hang, Eq.refl Res.hang⟩
        | ok y =>
          have lx := abs_len hx
          have ly := abs_len hy
          rw [← lx]
          simp only [Res.bind]
          rw [Ptr.divLongOverflowing_eq (p := p) m (by norm_num : 0 < 8) x y (by omega) (by omega) (by omega),
            Ptr.remLongOverflowing_eq (p := p) m (by norm_num : 0 < 8) x y (by omega) (by omega) (by omega)]
          exact ⟨rfl, rfl⟩

private theorem same_i (h0 : 0 < n) (hn : 8 * n < 2 ^ p) (h60 : n < 2 ^ 60) (m : Mode) :
    Same (fun a : Bytes => a.length = n) (IN.wordOpsAt p m) (IN.wordOps m) where
  bin a b ha hb := by
    obtain ⟨h1, h2⟩ := iops_eq (p := p) h0 hn m a b ha hb
    exact ⟨rfl, rfl, rfl, h1, h2, rfl, rfl, rfl⟩
  un a k ha := ⟨rfl, rfl, rfl⟩
  keep a b z ha hb h := by
    have hl := len_eq ha hb
    have hne : a ≠ [] := List.length_pos_iff.mp (by omega)
    obtain ⟨⟨a1, _⟩, ⟨a2, _⟩, ⟨a3, _⟩, _⟩ := C38_twos_complement a b hl
    obtain ⟨q, r, _, _, d1, d2, d3, d4, _⟩ := C41_div_exact_partial m a b hne hl (by omega)
    rw [← ha]
    rcases h with h | h | h | h | h | h | h | h
    · exact ok_len h rfl a1
    · exact ok_len h rfl a2
    · exact ok_len h rfl a3
    · exact ok_len h d1 d3
    · exact ok_len h d2 d4
    · exact ok_len h rfl (bits_len hl _)
    · exact ok_len h rfl (bits_len hl _)
    · exact ok_len h rfl (bits_len hl _)
  keep1 a k z ha h := by
    rw [← ha]
    rcases h with h | h | h
    · exact ok_len h rfl (List.length_map _)
    · cases h
    · cases h

end

/-- C197, the operators: an expression over `U<N>` or `I<N>`, shifts by a `usize` among its operators, gives the same
result, or the same panic, on any two targets on which the bits of the type can be counted in a `usize`. -/
theorem C197_operators_partial (p q : Nat) [PtrWidth p] [PtrWidth q] (n : Nat) (h0 : 0 < n) (hp : 8 * n < 2 ^ p)
    (hq : 8 * n < 2 ^ q) (h60 : n < 2 ^ 60) (m : Mode) (e : Expr Bytes) (he : e.Lits fun a => a.length = n) :
    e.run (UN.wordOpsAt p m) = e.run (UN.wordOpsAt q m) ∧
    e.run (IN.wordOpsAt p m) = e.run (IN.wordOpsAt q m) :=
  ⟨((run_same (same_u (p := p) h0 hp h60 m) e he).1).trans (run_same (same_u (p := q) h0 hq h60 m) e he).1.symm,
   ((run_same (same_i (p := p) h0 hp h60 m) e he).1).trans (run_same (same_i (p := q) h0 hq h60 m) e he).1.symm⟩

/-- The bytes 200, 1 are 456; `(456 * 3) % 7 << 9 >> 8` uses every operator the pointer width enters. -/
example : (Expr.shr (.shl (.rem (.mul (.lit [200#8, 1#8]) (.lit [3#8, 0#8])) (.lit [7#8, 0#8])) 9) 8).run
      (UN.wordOpsAt 16 .debug) = .ok [6#8, 0#8] ∧
    (Expr.div (.lit [0x9C#8, 0xFF#8]) (.lit [7#8, 0#8])).run (IN.wordOpsAt 16 .release) =
      (Expr.div (.lit [0x9C#8, 0xFF#8]) (.lit [7#8, 0#8])).run (IN.wordOpsAt 32 .release) ∧
    (Expr.shr (.shl (.rem (.mul (.lit [200#8, 1#8]) (.lit [3#8, 0#8])) (.lit [7#8, 0#8])) 9) 8).run
        (UN.wordOpsAt 16 .debug) =
      (Expr.shr (.shl (.rem (.mul (.lit [200#8, 1#8]) (.lit [3#8, 0#8])) (.lit [7#8, 0#8])) 9) 8).run
        (UN.wordOpsAt 64 .debug) :=
  have : PtrWidth 16 := ⟨by simp⟩
  have : PtrWidth 32 := ⟨by simp⟩
  have : PtrWidth 64 := ⟨by simp⟩
  ⟨by decide +kernel,
   (C197_operators_partial 16 32 2 (by norm_num) (by norm_num) (by norm_num) (by norm_num) .release
      (.div (.lit [0x9C#8, 0xFF#8]) (.lit [7#8, 0#8])) ⟨rfl, rfl⟩).2,
   (C197_operators_partial 16 64 2 (by norm_num) (by norm_num) (by norm_num) (by norm_num) .debug
      (.shr (.shl (.rem (.mul (.lit [200#8, 1#8]) (.lit [3#8, 0#8])) (.lit [7#8, 0#8])) 9) 8)
      ⟨⟨rfl, rfl⟩, rfl⟩).1⟩

private theorem toUsizeAt_spec (p : Nat) (v : Bytes) :
    UN.toUsizeAt p v = if v.length ≤ p / 8 then .ok (val v) else .panic := by
  unfold UN.toUsizeAt
  split
  · rename_i h
    rw [toPrimChecked_small _ v h]
    simp only [Res.bind, Res.ofOption]
    congr 1
    rw [BitVec.toNat_ofNat, Nat.mod_eq_of_lt]
    exact Nat.lt_of_lt_of_le (val_lt v)
      (Nat.pow_le_pow_right (by norm_num) (Nat.mul_le_mul_left _ h))
  · rename_i h
    rw [toPrimChecked_panic _ v (by omega)]
    rfl

private theorem powAt_spec (p : Nat) (m : Mode) (a b : Bytes) (ha : a ≠ []) :
    UN.powAt p m a b = if val a ≤ 1 then .ok a else if val b = 0 then .ok (UN.one a.length)
      else if b.length ≤ p / 8 then UN.product m a (val b) else .panic := by
  unfold UN.powAt
  rw [UN.isOne_spec a ha, toUsizeAt_spec]
  by_cases h0 : val a = 0
  · rw [if_pos ((UN.isZero_iff a).mpr h0), if_pos (by omega)]
  · rw [if_neg (by rw [UN.isZero_iff]; exact h0)]
    simp only [Res.bind]
    by_cases h1 : val a = 1
    · simp only [h1, decide_true, if_true, le_refl]
    · rw [if_neg (by simpa using h1), if_neg (by omega : ¬ val a ≤ 1)]
      by_cases h2 : val b = 0
      · rw [if_pos ((UN.isZero_iff b).mpr h2), if_pos h2]
      · rw [if_neg (by rw [UN.isZero_iff]; exact h2), if_neg h2]
        by_cases h3 : b.length ≤ p / 8
        · simp only [h3, if_true]
        · simp only [h3, if_false]

section
variable {p : Nat} [hp : PtrWidth p] {n : Nat}

private theorem bits_lt (h : n ≤ p / 8) : 8 * n < 2 ^ p ∧ n < 2 ^ 60 := by
  have h1 : p < 2 ^ p := Nat.lt_two_pow_self
  have := hp.cases
  constructor <;> omega

private theorem writeLoopAt_eq (h0 : 0 < n) (hn : n ≤ p / 8) (m : Mode) (base : Bytes) (hb : base.length = n)
    (fuel : Nat) (s : Bytes) (hs : s.length = n) (ds : List (BitVec 8)) :
    UN.writeLoopAt p m base fuel s ds = UN.writeLoop m base fuel s ds := by
  obtain ⟨k1, k2⟩ := bits_lt (p := p) hn
  induction fuel generalizing s ds with
  | zero => rw [UN.writeLoopAt, UN.writeLoop]
  | succ fuel ih =>
    rw [UN.writeLoopAt, UN.writeLoop]
    obtain ⟨e1, e2, _⟩ := uops_eq (p := p) h0 k1 m s base 0 hs hb
    obtain ⟨q, r, d1, d2, _, d4, d5, _⟩ := C30_div_exact_partial m s base (by omega)
      (List.length_pos_iff.mp (by omega)) (by omega)
    rw [e1, e2, d1, d2]
    simp only [Res.bind]
    simp only [ih q (by omega)]

private theorem displayAt_eq (h0 : 0 < n) (hn : n ≤ p / 8) (m : Mode) (fuel : Nat) (a : Bytes) (ha : a.length = n) :
    UN.displayAt p m fuel a = UN.display m fuel a := by
  have h8 : n ≤ 8 := by have := hp.cases; omega
  obtain ⟨x, x1, x2, x3⟩ := fromPrimChecked_trunc a.length (p / 8) (BitVec.ofNat _ 10) (by omega)
  obtain ⟨y, y1, y2, y3⟩ := fromPrimChecked_trunc a.length 8 (BitVec.ofNat 64 10) (by omega)
  have e : x = y := by
    refine eq_of_val_eq (by omega) ?_
    rw [x3, y3, BitVec.toNat_ofNat]
    congr 1
    rcases hp.cases with h | h | h <;> subst h <;> rfl
  subst e
  unfold UN.displayAt UN.display UN.writeBaseAt UN.writeBase
  rw [show UN.fromPrimChecked a.length 8 (BitVec.ofNat 64 10) = _ from y1, x1]
  simp only [Res.bind, Res.ofOption]
  rw [writeLoopAt_eq h0 hn m x (by omega) fuel a ha []]

end

/-- C197, the operations that go through `usize`: shifts by a `U<N>`, `pow` and `Display` agree on any two targets
whose `usize` has at least `N` bytes. -/
theorem C197_usize_partial (p q : Nat) [PtrWidth p] [PtrWidth q] (n : Nat) (h0 : 0 < n) (hp : n ≤ p / 8)
    (hq : n ≤ q / 8) (m : Mode) (fuel : Nat) (a b : Bytes) (ha : a.length = n) (hb : b.length = n) :
    UN.shlUAt p m a b = UN.shlUAt q m a b ∧ UN.shrUAt p m a b = UN.shrUAt q m a b ∧
    UN.powAt p m a b = UN.powAt q m a b ∧ UN.displayAt p m fuel a = UN.displayAt q m fuel a := by
  obtain ⟨p1, p2⟩ := bits_lt (p := p) hp
  obtain ⟨q1, q2⟩ := bits_lt (p := q) hq
  have hne : a ≠ [] := List.length_pos_iff.mp (by omega)
  have es : ∀ k, UN.shlAt p m a k = UN.shlAt q m a k ∧ UN.shrAt p m a k = UN.shrAt q m a k := by
    intro k
    obtain ⟨_, _, _, e1, e2⟩ := uops_eq (p := p) h0 p1 m a b k ha hb
    obtain ⟨_, _, _, f1, f2⟩ := uops_eq (p := q) h0 q1 m a b k ha hb
    exact ⟨e1.trans f1.symm, e2.trans f2.symm⟩
  refine ⟨?_, ?_, ?_, ?_⟩
  · unfold UN.shlUAt
    rw [toUsizeAt_spec, toUsizeAt_spec, if_pos (by omega), if_pos (by omega)]
    exact (es _).1
  · unfold UN.shrUAt
    rw [toUsizeAt_spec, toUsizeAt_spec, if_pos (by omega), if_pos (by omega)]
    exact (es _).2
  · rw [powAt_spec _ _ _ _ hne, powAt_spec _ _ _ _ hne, if_pos (by omega : b.length ≤ p / 8),
      if_pos (by omega : b.length ≤ q / 8)]
  · rw [displayAt_eq h0 hp m fuel a ha, displayAt_eq h0 hq m fuel a ha]

/-- 1 shifted left by 9 in `U<2>`, 3 to the power 5, and the digits of 200. -/
example : UN.shlUAt 16 .debug [1#8, 0#8] [9#8, 0#8] = .ok [0#8, 2#8] ∧
    UN.shlUAt 16 .debug [1#8, 0#8] [9#8, 0#8] = UN.shlUAt 32 .debug [1#8, 0#8] [9#8, 0#8] ∧
    UN.powAt 16 .debug [3#8] [5#8] = .ok [243#8] ∧
    UN.displayAt 16 .release 9 [200#8] = .ok ['2', '0', '0'] :=
  have : PtrWidth 16 := ⟨by simp⟩
  have : PtrWidth 32 := ⟨by simp⟩
  ⟨by decide +kernel,
   (C197_usize_partial 16 32 2 (by norm_num) (by norm_num) (by norm_num) .debug 0 _ _ rfl rfl).1,
   by decide +kernel, by decide +kernel⟩

/-- C197, exact: where `usize` has fewer than `N` bytes, shifts by a `U<N>` always panic, `pow` panics unless its
result does not depend on the exponent's size, and printing always panics. -/
theorem C197_usize_exact_partial (p n : Nat) (h0 : 0 < n) (hp : p / 8 < n) (m : Mode) (fuel : Nat)
    (a b : Bytes) (ha : a.length = n) (hb : b.length = n) :
    UN.shlUAt p m a b = .panic ∧ UN.shrUAt p m a b = .panic ∧
    (1 < val a → val b ≠ 0 → UN.powAt p m a b = .panic) ∧
    (val a ≤ 1 → UN.powAt p m a b = .ok a) ∧
    (1 < val a → val b = 0 → UN.powAt p m a b = .ok (UN.one n)) ∧
    UN.displayAt p m fuel a = .panic := by
  have hne : a ≠ [] := List.length_pos_iff.mp (by omega)
  rw [powAt_spec _ _ _ _ hne]
  refine ⟨?_, ?_, fun h1 h2 => ?_, fun h => if_pos h, fun h1 h2 => ?_, ?_⟩
  · unfold UN.shlUAt
    rw [toUsizeAt_spec, if_neg (by omega)]
    exact Eq.refl Res.panic
  · unfold UN.shrUAt
    rw [toUsizeAt_spec, if_neg (by omega)]
    exact Eq.refl Res.panic
  · rw [if_neg (by omega), if_neg h2, if_neg (by omega)]
  · rw [if_neg (by omega), if_pos h2, ha]
  · unfold UN.displayAt UN.writeBaseAt
    rw [fromPrimChecked_panic _ _ _ (by omega)]
    exact Eq.refl Res.panic

/-- `U<4>` where `usize` has two bytes. -/
example : UN.shlUAt 16 .release [1#8, 0#8, 0#8, 0#8] [1#8, 0#8, 0#8, 0#8] = .panic ∧
    UN.powAt 16 .debug [1#8, 0#8, 0#8, 0#8] [9#8, 0#8, 0#8, 0#8] = .ok [1#8, 0#8, 0#8, 0#8] :=
  have h := C197_usize_exact_partial 16 4 (by norm_num) (by norm_num)
  ⟨(h .release 0 _ _ rfl rfl).1, (h .debug 0 _ _ rfl rfl).2.2.2.1 (by decide)⟩

/-- C197, violated by the code: in `U<4>`, `1 << 1` by a `U<4>` is 2 where `usize` has 32 or 64 bits and panics where
it has 16, in both builds; so do `2.pow(3)` and printing 0. In `U<5>` the shift also panics with 32 bits. The empty
`U<0>` shifted by `0x8000usize` in a release build is fine with 16 bits and panics with more. -/
theorem C197_violated (m : Mode) :
    (UN.shlUAt 64 m [1#8, 0#8, 0#8, 0#8] [1#8, 0#8, 0#8, 0#8] = .ok [2#8, 0#8, 0#8, 0#8] ∧
      UN.shlUAt 32 m [1#8, 0#8, 0#8, 0#8] [1#8, 0#8, 0#8, 0#8] = .ok [2#8, 0#8, 0#8, 0#8] ∧
      UN.shlUAt 16 m [1#8, 0#8, 0#8, 0#8] [1#8, 0#8, 0#8, 0#8] = .panic) ∧
    (UN.shlUAt 64 m [1#8, 0#8, 0#8, 0#8, 0#8] [1#8, 0#8, 0#8, 0#8, 0#8] = .ok [2#8, 0#8, 0#8, 0#8, 0#8] ∧
      UN.shlUAt 32 m [1#8, 0#8, 0#8, 0#8, 0#8] [1#8, 0#8, 0#8, 0#8, 0#8] = .panic) ∧
    (UN.powAt 32 m [2#8, 0#8, 0#8] [3#8, 0#8, 0#8] = .ok [8#8, 0#8, 0#8] ∧
      UN.powAt 16 m [2#8, 0#8, 0#8] [3#8, 0#8, 0#8] = .panic) ∧
    (UN.displayAt 32 m 9 [0#8, 0#8, 0#8] = .ok ['0'] ∧ UN.displayAt 16 m 9 [0#8, 0#8, 0#8] = .panic) ∧
    (UN.shlAt 16 .release [] 0x8000 = .ok [] ∧ UN.shlAt 32 .release [] 0x8000 = .panic) := by
  cases m <;> decide +kernel

end Verif
