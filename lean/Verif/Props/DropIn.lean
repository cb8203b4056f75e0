import Verif.Spec.DropIn
import Verif.Props.UInt
import Verif.Props.IInt
import Verif.Props.MulExact
import Verif.Props.ShiftExact

/-!
# `U<N>` and `I<N>` in place of the primitives of the same width (C195)

A literal `v` of the primitive type becomes `U::from_uX(v)`; the theorems compare the results of the same
expression over both types, bit for bit.
-/

namespace Verif

open Word

private theorem eq_fromPrim {size : Nat} {z : Bytes} {v : BitVec (8 * size)} (h1 : z.length = size)
    (h2 : val z = v.toNat) : z = UN.fromPrim size v :=
  eq_of_val_eq (by rw [h1]; exact (leBytes_length size v).symm) (by rw [h2]; exact (val_leBytes size v).symm)

private theorem len_fromPrim {size : Nat} (v : BitVec (8 * size)) : (UN.fromPrim size v).length = size :=
  leBytes_length size v

private theorem val_fromPrim {size : Nat} (v : BitVec (8 * size)) : val (UN.fromPrim size v) = v.toNat :=
  val_leBytes size v

private theorem pow256 (n : Nat) : 256 ^ n = 2 ^ (8 * n) := by rw [Nat.pow_mul]

/-- What one operator of `U<N>` does, compared with the primitive; if `ex`, both panic together. -/
private def Like {size : Nat} (ex : Prop) (p : Res (BitVec (8 * size))) (u : Res Bytes) : Prop :=
  (∀ v, p = .ok v → u = .ok (UN.fromPrim size v)) ∧ (ex → p = .panic → u = .panic) ∧ p ≠ .hang

private theorem like_ok {size : Nat} {ex : Prop} {v : BitVec (8 * size)} {z : Bytes}
    (h : z = UN.fromPrim size v) : Like ex (.ok v) (.ok z) :=
  ⟨fun _ e => by injection e with e; rw [h, e], nofun, nofun⟩

private theorem like_bind {size : Nat} {ex : Prop} {p : Res (BitVec (8 * size))} {u : Res Bytes}
    {f : BitVec (8 * size) → Res (BitVec (8 * size))} {g : Bytes → Res Bytes} (h : Like ex p u)
    (hf : ∀ v, Like ex (f v) (g (UN.fromPrim size v))) : Like ex (p.bind f) (u.bind g) := by
  obtain ⟨h1, h2, h3⟩ := h
  cases p with
  | ok v => rw [h1 v rfl]; exact hf v
  | panic => exact ⟨nofun, fun e _ => by rw [h2 e rfl]; rfl, nofun⟩
  | hang => exact absurd rfl h3

private theorem like_add {size : Nat} (m : Mode) (ex : Prop) (a b : BitVec (8 * size)) :
    Like ex ((prim m _).add a b) ((UN.wordOps m).add (UN.fromPrim size a) (UN.fromPrim size b)) := by
  obtain ⟨k1, k2, _⟩ := C27_checked_add_sub (UN.fromPrim size a) (UN.fromPrim size b)
    (by rw [len_fromPrim, len_fromPrim])
  rw [val_fromPrim, val_fromPrim, len_fromPrim, pow256] at k1 k2
  change Like ex (checked m _ _) (UN.add m _ _)
  have hb := b.isLt
  have ha := a.isLt
  by_cases h : a.toNat + b.toNat < 2 ^ (8 * size)
  · obtain ⟨z, _, z2, z3, z4, z5⟩ := k1 h
    rw [checked, if_neg (by simp [h])]
    rw [show UN.add m _ _ = .ok z by cases m <;> assumption]
    exact like_ok (eq_fromPrim z2 (by rw [z3, BitVec.toNat_add, Nat.mod_eq_of_lt h]))
  · obtain ⟨_, z4, z, z5, z6, z7⟩ := k2 (by omega)
    cases m with
    | debug =>
      rw [checked, if_pos ⟨rfl, by simp [h]⟩, z4]
      exact ⟨nofun, fun _ _ => rfl, nofun⟩
    | release =>
      rw [checked, if_neg (by simp), z5]
      refine like_ok (eq_fromPrim z6 ?_)
      rw [z7, BitVec.toNat_add, Nat.mod_eq_sub_mod (by omega), Nat.mod_eq_of_lt (by omega)]

private theorem like_sub {size : Nat} (m : Mode) (ex : Prop) (a b : BitVec (8 * size)) :
    Like ex ((prim m _).sub a b) ((UN.wordOps m).sub (UN.fromPrim size a) (UN.fromPrim size b)) := by
  obtain ⟨_, _, k1, k2⟩ := C27_checked_add_sub (UN.fromPrim size a) (UN.fromPrim size b)
    (by rw [len_fromPrim, len_fromPrim])
  rw [val_fromPrim, val_fromPrim, len_fromPrim] at k1 k2
  rw [pow256] at k2
  change Like ex (checked m _ _) (UN.sub m _ _)
  have hb := b.isLt
  have ha := a.isLt
  by_cases h : b.toNat ≤ a.toNat
  · obtain ⟨z, _, z2, z3, z4, z5⟩ := k1 h
    rw [checked, if_neg (by simp [h])]
    rw [show UN.sub m _ _ = .ok z by cases m <;> assumption]
    refine like_ok (eq_fromPrim z2 ?_)
    rw [z3, BitVec.toNat_sub, show 2 ^ (8 * size) - b.toNat + a.toNat = 2 ^ (8 * size) + (a.toNat - b.toNat) by omega,
      Nat.add_mod_left, Nat.mod_eq_of_lt (by omega)]
  · obtain ⟨_, z4, z, z5, z6, z7⟩ := k2 (by omega)
    cases m with
    | debug =>
      rw [checked, if_pos ⟨rfl, by simp [h]⟩, z4]
      exact ⟨nofun, fun _ _ => rfl, nofun⟩
    | release =>
      rw [checked, if_neg (by simp), z5]
      refine like_ok (eq_fromPrim z6 ?_)
      rw [z7, BitVec.toNat_sub, Nat.mod_eq_of_lt (by omega)]
      omega

private theorem like_mul {size : Nat} (m : Mode) (a b : BitVec (8 * size)) :
    Like (m = .release) ((prim m _).mul a b) ((UN.wordOps m).mul (UN.fromPrim size a) (UN.fromPrim size b)) := by
  obtain ⟨k1, _⟩ := C28_checked_mul_partial (UN.fromPrim size a) (UN.fromPrim size b)
  obtain ⟨p, p1, p2, p3, _⟩ := C28_checked_mul_exact_partial (UN.fromPrim size a) (UN.fromPrim size b)
  rw [val_fromPrim, val_fromPrim, len_fromPrim, pow256] at k1 p2
  rw [len_fromPrim] at p1
  change Like _ (checked m _ _) (UN.mul m _ _)
  by_cases h : a.toNat * b.toNat < 2 ^ (8 * size)
  · obtain ⟨z, _, z2, z3, z4, z5⟩ := k1 h
    rw [checked, if_neg (by simp [h])]
    rw [show UN.mul m _ _ = .ok z by cases m <;> assumption]
    exact like_ok (eq_fromPrim z2 (by rw [z3, BitVec.toNat_mul, Nat.mod_eq_of_lt h]))
  · cases m with
    | debug =>
      rw [checked, if_pos ⟨rfl, by simp [h]⟩]
      exact ⟨nofun, nofun, nofun⟩
    | release =>
      rw [checked, if_neg (by simp), p3]
      exact like_ok (eq_fromPrim p1 (by rw [p2, BitVec.toNat_mul]))

private theorem like_div {size : Nat} (hs : 0 < size) (hf : size < 2 ^ 60) (m : Mode) (ex : Prop)
    (a b : BitVec (8 * size)) (h0 : b ≠ 0) (hb : b.toNat ≤ 128) :
    Like ex ((prim m _).div a b) ((UN.wordOps m).div (UN.fromPrim size a) (UN.fromPrim size b)) ∧
    Like ex ((prim m _).rem a b) ((UN.wordOps m).rem (UN.fromPrim size a) (UN.fromPrim size b)) := by
  have hb0 : b.toNat ≠ 0 := fun e => h0 (BitVec.eq_of_toNat_eq (by rw [e]; simp))
  obtain ⟨q, r, h1, h2, _, h4, h5, h6, h7⟩ := C30_div_partial m (UN.fromPrim size a) (UN.fromPrim size b)
    (by rw [len_fromPrim, len_fromPrim])
    (by intro e; have := len_fromPrim a; rw [e] at this; simp at this; omega) (by rwa [len_fromPrim])
    (by rwa [val_fromPrim]) (by rw [val_fromPrim]; omega) (by rw [val_fromPrim, val_fromPrim]; omega)
  rw [len_fromPrim] at h4 h5
  rw [val_fromPrim, val_fromPrim] at h6
  rw [val_fromPrim] at h7
  have e := Nat.div_mod_unique (by omega : 0 < b.toNat) (c := val r) (d := val q) (a := a.toNat)
  have e := e.2 ⟨by rw [h6]; ring, h7⟩
  constructor
  · change Like ex (if b = 0 then _ else _) (UN.div m _ _)
    rw [if_neg h0, h1]
    exact like_ok (eq_fromPrim h4 (by rw [BitVec.toNat_udiv, e.1]))
  · change Like ex (if b = 0 then _ else _) (UN.rem m _ _)
    rw [if_neg h0, h2]
    exact like_ok (eq_fromPrim h5 (by rw [BitVec.toNat_umod, e.2]))

private theorem like_bits {size : Nat} (m : Mode) (ex : Prop) (a b : BitVec (8 * size)) :
    Like ex ((prim m _).and a b) ((UN.wordOps m).and (UN.fromPrim size a) (UN.fromPrim size b)) ∧
    Like ex ((prim m _).or a b) ((UN.wordOps m).or (UN.fromPrim size a) (UN.fromPrim size b)) ∧
    Like ex ((prim m _).xor a b) ((UN.wordOps m).xor (UN.fromPrim size a) (UN.fromPrim size b)) ∧
    Like ex ((prim m _).not a) ((UN.wordOps m).not (UN.fromPrim size a)) := by
  obtain ⟨⟨a1, a2⟩, ⟨b1, b2⟩, ⟨c1, c2⟩, d1, d2⟩ := C33_bit_ops (UN.fromPrim size a) (UN.fromPrim size b)
    (by rw [len_fromPrim, len_fromPrim])
  rw [len_fromPrim] at a1 b1 c1 d1
  rw [val_fromPrim, val_fromPrim] at a2 b2 c2
  rw [val_fromPrim, len_fromPrim, pow256] at d2
  exact ⟨like_ok (eq_fromPrim a1 (by rw [a2, BitVec.toNat_and])),
    like_ok (eq_fromPrim b1 (by rw [b2, BitVec.toNat_or])),
    like_ok (eq_fromPrim c1 (by rw [c2, BitVec.toNat_xor])),
    like_ok (eq_fromPrim d1 (by rw [d2, BitVec.toNat_not]))⟩

private theorem like_shl {size : Nat} (hs : ∃ e, size = 2 ^ e) (hf : size < 2 ^ 60) (m : Mode) (a : BitVec (8 * size)) (k : Nat) :
    Like (m = .release ∨ k ≠ 8 * size) ((prim m _).shl a k) ((UN.wordOps m).shl (UN.fromPrim size a) k) := by
  obtain ⟨e, he⟩ := hs
  have hpos : 0 < size := by rw [he]; positivity
  obtain ⟨h1, h2, h3, _⟩ := C34_shifts_partial (UN.fromPrim size a) k
    (by intro e; have := len_fromPrim a; rw [e] at this; simp at this; omega) (by rwa [len_fromPrim])
  rw [len_fromPrim, val_fromPrim, pow256] at h1
  rw [len_fromPrim] at h2 h3
  obtain ⟨z, z1, z2, z3⟩ := h2 (e + 3) (by rw [he, pow_add]; ring)
  rw [val_fromPrim, pow256] at z3
  change Like _ (amount m _ _ _) (UN.shl m _ _)
  have hm : ∀ j, a.toNat * 2 ^ j % 2 ^ (8 * size) = (a <<< j).toNat := by
    intro j
    rw [BitVec.toNat_shiftLeft, Nat.shiftLeft_eq]
  rw [hm] at z3
  cases m with
  | debug =>
    by_cases h : k < 8 * size
    · obtain ⟨y, y1, y2, y3⟩ := h1 h
      rw [hm] at y3
      rw [amount, if_pos h, y1]
      exact like_ok (eq_fromPrim y2 y3)
    · rw [amount, if_neg h]
      exact ⟨nofun, fun hx _ => (h3 (by rcases hx with hx | hx; cases hx; omega)).1, nofun⟩
  | release =>
    rw [z1]
    by_cases h : k < 8 * size
    · rw [Nat.mod_eq_of_lt h] at z3
      rw [amount, if_pos h]
      exact like_ok (eq_fromPrim z2 z3)
    · rw [amount, if_neg h]
      exact like_ok (eq_fromPrim z2 z3)

private theorem like_shr {size : Nat} (hs : ∃ e, size = 2 ^ e) (hf : size < 2 ^ 60) (m : Mode) (ex : Prop)
    (a : BitVec (8 * size)) (k : Nat) (hk : k % 8 = 0) :
    Like ex ((prim m _).shr a k) ((UN.wordOps m).shr (UN.fromPrim size a) k) := by
  obtain ⟨e, he⟩ := hs
  have hpos : 0 < size := by rw [he]; positivity
  have hne : UN.fromPrim size a ≠ [] := by
    intro e; have := len_fromPrim a; rw [e] at this; simp at this; omega
  obtain ⟨_, _, _, h1, h2, _⟩ := C34_shifts_partial (UN.fromPrim size a) k hne (by rwa [len_fromPrim])
  obtain ⟨_, _, _, h3, _⟩ := C34_shifts_exact_partial (UN.fromPrim size a) k hne (by rwa [len_fromPrim])
  rw [len_fromPrim, val_fromPrim] at h1
  rw [len_fromPrim] at h2 h3
  obtain ⟨z, z1, z2, z3⟩ := h2 (e + 3) (by rw [he, pow_add]; ring)
  have z3 := z3 (by rw [hk]; exact BitVec.isLt _)
  rw [val_fromPrim] at z3
  change Like _ (amount m _ _ _) (UN.shr m _ _)
  have hm : ∀ j, a.toNat / 2 ^ j = (a >>> j).toNat := by
    intro j
    rw [BitVec.toNat_ushiftRight, Nat.shiftRight_eq_div_pow]
  rw [hm] at z3
  cases m with
  | debug =>
    by_cases h : k < 8 * size
    · obtain ⟨y, y1, y2, y3⟩ := h1 h
      have y3 := y3 (by rw [hk]; exact BitVec.isLt _)
      rw [hm] at y3
      rw [amount, if_pos h, y1]
      exact like_ok (eq_fromPrim y2 y3)
    · rw [amount, if_neg h]
      exact ⟨nofun, fun _ _ => h3 (by omega), nofun⟩
  | release =>
    rw [z1]
    by_cases h : k < 8 * size
    · rw [Nat.mod_eq_of_lt h] at z3
      rw [amount, if_pos h]
      exact like_ok (eq_fromPrim z2 z3)
    · rw [amount, if_neg h]
      exact like_ok (eq_fromPrim z2 z3)

private theorem Like.weaken {size : Nat} {ex ex' : Prop} {p : Res (BitVec (8 * size))} {u : Res Bytes}
    (h : Like ex p u) (hx : ex' → ex) : Like ex' p u := ⟨h.1, fun e => h.2.1 (hx e), h.2.2⟩

/-- The divisors for which the long division is always right, and the amounts for which `>>` is. -/
abbrev Tame {size : Nat} (P : Nat → Prop) (e : Expr (BitVec (8 * size))) : Prop :=
  e.Only P (fun k => k % 8 = 0) fun d => d ≠ 0 ∧ d.toNat ≤ 128

private theorem like_run {size : Nat} (hs : ∃ e, size = 2 ^ e) (hf : size < 2 ^ 60) (m : Mode) (ex : Prop)
    (P : Nat → Prop) (hP : ∀ k, P k → ex → m = .release ∨ k ≠ 8 * size) (e : Expr (BitVec (8 * size)))
    (h : Tame P e) (hx : ex → m = .release ∨ e.MulFree) :
    Like ex (e.run (prim m _)) ((e.map (UN.fromPrim size)).run (UN.wordOps m)) := by
  have hpos : 0 < size := by obtain ⟨j, hj⟩ := hs; rw [hj]; positivity
  have l : ∀ {p q : Expr (BitVec (8 * size))}, (ex → m = .release ∨ p.MulFree ∧ q.MulFree) →
      ex → m = .release ∨ p.MulFree := fun h e => (h e).imp_right And.left
  have r : ∀ {p q : Expr (BitVec (8 * size))}, (ex → m = .release ∨ p.MulFree ∧ q.MulFree) →
      ex → m = .release ∨ q.MulFree := fun h e => (h e).imp_right And.right
  induction e with
  | lit a => exact like_ok rfl
  | add p q ihp ihq =>
    exact like_bind (ihp h.1 (l hx)) fun x => like_bind (ihq h.2 (r hx)) fun y => like_add m ex x y
  | sub p q ihp ihq =>
    exact like_bind (ihp h.1 (l hx)) fun x => like_bind (ihq h.2 (r hx)) fun y => like_sub m ex x y
  | mul p q ihp ihq =>
    have hr : ex → m = .release := fun e => (hx e).resolve_right id
    exact like_bind (ihp h.1 fun e => .inl (hr e)) fun x =>
      like_bind (ihq h.2 fun e => .inl (hr e)) fun y => (like_mul m x y).weaken hr
  | div p q ihp ihq =>
    obtain ⟨hp, d, rfl, d1, d2⟩ := h
    exact like_bind (ihp hp (l hx)) fun x => (like_div hpos hf m ex x d d1 d2).1
  | rem p q ihp ihq =>
    obtain ⟨hp, d, rfl, d1, d2⟩ := h
    exact like_bind (ihp hp (l hx)) fun x => (like_div hpos hf m ex x d d1 d2).2
  | and p q ihp ihq =>
    exact like_bind (ihp h.1 (l hx)) fun x => like_bind (ihq h.2 (r hx)) fun y => (like_bits m ex x y).1
  | or p q ihp ihq =>
    exact like_bind (ihp h.1 (l hx)) fun x => like_bind (ihq h.2 (r hx)) fun y => (like_bits m ex x y).2.1
  | xor p q ihp ihq =>
    exact like_bind (ihp h.1 (l hx)) fun x => like_bind (ihq h.2 (r hx)) fun y => (like_bits m ex x y).2.2.1
  | not p ih => exact like_bind (ih h hx) fun x => (like_bits m ex x x).2.2.2
  | shl p k ih =>
    exact like_bind (ih h.1 hx) fun x => (like_shl hs hf m x k).weaken (hP k h.2)
  | shr p k ih => exact like_bind (ih h.1 hx) fun x => like_shr hs hf m ex x k h.2

private theorem size_cases {size : Nat} (hs : size ∈ [1, 2, 4, 8, 16]) : (∃ e, size = 2 ^ e) ∧ size < 2 ^ 60 := by
  simp only [List.mem_cons, List.not_mem_nil, or_false] at hs
  rcases hs with rfl | rfl | rfl | rfl | rfl
  · exact ⟨⟨0, rfl⟩, by norm_num⟩
  · exact ⟨⟨1, rfl⟩, by norm_num⟩
  · exact ⟨⟨2, rfl⟩, by norm_num⟩
  · exact ⟨⟨3, rfl⟩, by norm_num⟩
  · exact ⟨⟨4, rfl⟩, by norm_num⟩

private theorem ok_bind {α β : Type} {p : Res α} {f : α → Res β} (h : ∃ v, p = .ok v) (hf : ∀ v, ∃ x, f v = .ok x) :
    ∃ x, p.bind f = .ok x := by
  obtain ⟨v, rfl⟩ := h
  exact hf v

private theorem amount_ok {α : Type} (w k : Nat) (f : Nat → α) : ∃ x, amount .release w k f = .ok x := by
  unfold amount
  split
  · exact ⟨_, rfl⟩
  · exact ⟨_, rfl⟩

private theorem checked_ok {w : Nat} (b : Bool) (x : BitVec w) : checked .release b x = .ok x := if_neg (by simp)

private theorem prim_ok {w : Nat} (P Q : Nat → Prop) (D : BitVec w → Prop) (hD : ∀ d, D d → d ≠ 0) (e : Expr (BitVec w))
    (h : e.Only P Q D) : ∃ v, e.run (prim .release w) = .ok v := by
  induction e with
  | lit a => exact ⟨a, rfl⟩
  | add p q ihp ihq | sub p q ihp ihq | mul p q ihp ihq =>
    exact ok_bind (ihp h.1) fun x => ok_bind (ihq h.2) fun y => by
      dsimp only [prim]
      exact ⟨_, checked_ok _ _⟩
  | div p q ihp _ | rem p q ihp _ =>
    obtain ⟨hp, d, rfl, hd⟩ := h
    exact ok_bind (ihp hp) fun x => ⟨_, if_neg (hD d hd)⟩
  | and p q ihp ihq | or p q ihp ihq | xor p q ihp ihq =>
    exact ok_bind (ihp h.1) fun x => ok_bind (ihq h.2) fun y => ⟨_, rfl⟩
  | not p ih => exact ok_bind (ih h) fun x => ⟨_, rfl⟩
  | shl p k ih | shr p k ih => exact ok_bind (ih h.1) fun x => amount_ok _ _ _

/-- C195, release builds: an expression over `U<N>` gives exactly the bits the primitive of the same width
gives, if it only divides by literals from 1 to 128 and shifts right by whole bytes. (Any shift to the left, and
any sum, difference, product and bit operator, whatever overflows.) Missing, because false: other divisions and right shifts. -/
theorem C195_release_partial (size : Nat) (hs : size ∈ [1, 2, 4, 8, 16]) (e : Expr (BitVec (8 * size)))
    (h : Tame (fun _ => True) e) :
    ∃ v, e.run (prim .release _) = .ok v ∧
      (e.map (UN.fromPrim size)).run (UN.wordOps .release) = .ok (UN.fromPrim size v) := by
  obtain ⟨h1, h2⟩ := size_cases hs
  obtain ⟨k1, k2, k3⟩ := like_run h1 h2 .release True _ (fun _ _ _ => .inl rfl) e h fun _ => .inl rfl
  obtain ⟨v, hv⟩ := prim_ok _ _ _ (fun _ hd => hd.1) e h
  exact ⟨v, hv, k1 v hv⟩

/-- C195, debug builds: if the primitive expression does not panic, the `U<N>` expression gives the same bits;
and if it does, the `U<N>` expression panics too, provided it does not multiply or shift left by exactly the width.
Missing, because false: these two, and other divisions and right shifts. -/
theorem C195_debug_partial (size : Nat) (hs : size ∈ [1, 2, 4, 8, 16]) (e : Expr (BitVec (8 * size)))
    (h : Tame (fun _ => True) e) :
    (∀ v, e.run (prim .debug _) = .ok v →
      (e.map (UN.fromPrim size)).run (UN.wordOps .debug) = .ok (UN.fromPrim size v)) ∧
    (Tame (fun k => k ≠ 8 * size) e → e.MulFree → e.run (prim .debug _) = .panic →
      (e.map (UN.fromPrim size)).run (UN.wordOps .debug) = .panic) := by
  obtain ⟨h1, h2⟩ := size_cases hs
  obtain ⟨k1, _⟩ := like_run h1 h2 .debug False _ (fun _ _ => nofun) e h nofun
  refine ⟨k1, fun ht hm => ?_⟩
  obtain ⟨_, k2, _⟩ := like_run h1 h2 .debug True _ (fun k hk _ => .inr hk) e ht fun _ => .inr hm
  exact k2 trivial

/-- Without divisions and shifts. -/
abbrev RingAndBits {w : Nat} (e : Expr (BitVec w)) : Prop :=
  e.Only (fun _ => False) (fun _ => False) fun _ => False

private theorem runS {size : Nat} (m : Mode) (e : Expr (BitVec (8 * size))) (h : RingAndBits e) :
    (e.map (UN.fromPrim size)).run (IN.wordOps m) = (e.map (UN.fromPrim size)).run (UN.wordOps .release) ∧
    ∃ v, e.run (prim .release _) = .ok v ∧ e.run (primS .release _) = .ok v ∧
      (e.run (primS .debug _) = .ok v ∨ e.run (primS .debug _) = .panic) := by
  have chk : ∀ {w : Nat} (b : Bool) (x : BitVec w), checked .debug b x = .ok x ∨ checked .debug b x = .panic := by
    intro w b x
    unfold checked
    split
    · exact .inr rfl
    · exact .inl rfl
  induction e with
  | lit a => exact ⟨rfl, a, rfl, rfl, .inl rfl⟩
  | add p q ihp ihq | sub p q ihp ihq | mul p q ihp ihq =>
    obtain ⟨p1, x, p2, p3, p4⟩ := ihp h.1
    obtain ⟨q1, y, q2, q3, q4⟩ := ihq h.2
    refine ⟨by simp only [Expr.map, Expr.run]; rw [p1, q1]; rfl, ?_⟩
    simp only [Expr.run]
    rcases p4 with p4 | p4
    · rcases q4 with q4 | q4
      · rw [p2, p3, q2, q3, p4, q4]
        dsimp only [Res.bind, prim, primS]
        exact ⟨_, checked_ok _ _, checked_ok _ _, chk _ _⟩
      · rw [p2, p3, q2, q3, p4, q4]
        dsimp only [Res.bind, prim, primS]
        exact ⟨_, checked_ok _ _, checked_ok _ _, .inr rfl⟩
    · rw [p2, p3, q2, q3, p4]
      dsimp only [Res.bind, prim, primS]
      exact ⟨_, checked_ok _ _, checked_ok _ _, .inr rfl⟩
  | and p q ihp ihq | or p q ihp ihq | xor p q ihp ihq =>
    obtain ⟨p1, x, p2, p3, p4⟩ := ihp h.1
    obtain ⟨q1, y, q2, q3, q4⟩ := ihq h.2
    refine ⟨by simp only [Expr.map, Expr.run]; rw [p1, q1]; rfl, ?_⟩
    simp only [Expr.run]
    rw [p2, p3, q2, q3]
    refine ⟨_, rfl, rfl, ?_⟩
    rcases p4 with p4 | p4 <;> rw [p4]
    · rcases q4 with q4 | q4 <;> rw [q4]
      · exact .inl rfl
      · exact .inr rfl
    · exact .inr rfl
  | not p ih =>
    obtain ⟨p1, x, p2, p3, p4⟩ := ih h
    refine ⟨by simp only [Expr.map, Expr.run]; rw [p1]; rfl, ?_⟩
    simp only [Expr.run]
    rw [p2, p3]
    refine ⟨_, rfl, rfl, ?_⟩
    rcases p4 with p4 | p4 <;> rw [p4]
    · exact .inl rfl
    · exact .inr rfl
  | div p q _ _ | rem p q _ _ => exact absurd h.2 fun ⟨_, _, hd⟩ => hd
  | shl p k _ | shr p k _ => exact absurd h.2 id

/-- C195 for `I<N>`: an expression without divisions and shifts gives, in every build, the bits the
signed primitive of the same width gives in a release build, and in a debug build unless that panics. Missing, because
false: divisions and shifts, and panics on overflow in debug builds. -/
theorem C195_signed_partial (size : Nat) (hs : size ∈ [1, 2, 4, 8, 16]) (m : Mode) (e : Expr (BitVec (8 * size)))
    (h : RingAndBits e) :
    ∃ v, (e.map (UN.fromPrim size)).run (IN.wordOps m) = .ok (UN.fromPrim size v) ∧
      e.run (primS .release _) = .ok v ∧
      (e.run (primS .debug _) = .ok v ∨ e.run (primS .debug _) = .panic) := by
  obtain ⟨h1, v, h2, h3, h4⟩ := runS m e h
  have ht : Tame (fun _ => True) e := by
    clear h1 h2 h3 h4
    induction e with
    | lit a => trivial
    | add p q ihp ihq | sub p q ihp ihq | mul p q ihp ihq | and p q ihp ihq | or p q ihp ihq | xor p q ihp ihq =>
      exact ⟨ihp h.1, ihq h.2⟩
    | not p ih => exact ih h
    | div p q _ _ | rem p q _ _ => exact absurd h.2 fun ⟨_, _, hd⟩ => hd
    | shl p k _ | shr p k _ => exact absurd h.2 id
  obtain ⟨v', k1, k2⟩ := C195_release_partial size hs e ht
  rw [h2] at k1
  injection k1 with k1
  subst k1
  exact ⟨v, h1.trans k2, h3, h4⟩

/-- C195, violated by the code: in `U<1>`, `0x80 >> 1` is 0xC0 in both profiles; in `U<2>`, `256 / 255` is 0 in both;
in `I<1>`, `-1 / 1` is -127; and the debug builds of `U<1>` and `I<1>` miss the overflow of `16 * 16`. -/
theorem C195_violated (m : Mode) :
    (∃ e : Expr (BitVec 8), (e.map (UN.fromPrim 1)).run (UN.wordOps m) ≠
      (e.run (prim m 8)).bind fun v => .ok (UN.fromPrim 1 v)) ∧
    (∃ e : Expr (BitVec 16), (e.map (UN.fromPrim 2)).run (UN.wordOps m) ≠
      (e.run (prim m 16)).bind fun v => .ok (UN.fromPrim 2 v)) ∧
    (∃ e : Expr (BitVec 8), (e.map (UN.fromPrim 1)).run (IN.wordOps m) ≠
      (e.run (primS m 8)).bind fun v => .ok (UN.fromPrim 1 v)) ∧
    ∃ e : Expr (BitVec 8), e.run (prim .debug 8) = .panic ∧ e.run (primS .debug 8) = .panic ∧
      (e.map (UN.fromPrim 1)).run (UN.wordOps .debug) = .ok (UN.fromPrim 1 0) ∧
      (e.map (UN.fromPrim 1)).run (IN.wordOps .debug) = .ok (UN.fromPrim 1 0) := by
  refine ⟨⟨.shr (.lit 0x80) 1, ?_⟩, ⟨.div (.lit 256) (.lit 255), ?_⟩, ⟨.div (.lit 255) (.lit 1), ?_⟩,
    .mul (.lit 16) (.lit 16), ?_, ?_, ?_, ?_⟩
  · cases m <;> decide +kernel
  · cases m <;> decide +kernel
  · cases m <;> decide +kernel
  · decide +kernel
  · decide +kernel
  · decide +kernel
  · decide +kernel

-- `((a * b) << 40) / 10 ^ !c` in 16 bits, release: the product overflows and the amount is taken modulo 16
private def mixed : Expr (BitVec (8 * 2)) :=
  .xor (.div (.shl (.mul (.lit 1000) (.lit 999)) 40) (.lit 10)) (.not (.lit 77))

example : Tame (fun _ => True) mixed ∧ mixed.run (prim .release _) = .ok 0xf77e ∧
    (mixed.map (UN.fromPrim 2)).run (UN.wordOps .release) = .ok [0x7e#8, 0xf7#8] :=
  ⟨⟨⟨⟨⟨trivial, trivial⟩, trivial⟩, 10, rfl, by decide, by decide⟩, trivial⟩, by decide +kernel, by decide +kernel⟩
-- the debug build panics in both types
example : mixed.run (prim .debug _) = .panic ∧ (mixed.map (UN.fromPrim 2)).run (UN.wordOps .debug) = .panic := by
  decide +kernel
-- a sum that overflows in debug builds
example : ((Expr.add (.lit (200#8)) (.lit 100#8)).map (UN.fromPrim 1)).run (UN.wordOps .debug) = .panic :=
  (C195_debug_partial 1 (by simp) (.add (.lit 200#8) (.lit 100#8)) ⟨trivial, trivial⟩).2 ⟨trivial, trivial⟩
    ⟨trivial, trivial⟩ (by decide +kernel)
-- -3 * 5 ^ 7 in I<1>
example : ∃ v, ((Expr.xor (.mul (.lit (-3#8)) (.lit 5#8)) (.lit 7#8)).map (UN.fromPrim 1)).run (IN.wordOps .debug) =
    .ok (UN.fromPrim 1 v) ∧ v = -10#8 :=
  ⟨_, by decide +kernel, rfl⟩

end Verif
