import Mathlib.Data.Int.Bitwise
import Verif.Lemmas.IntLaws

/-!
# C157, C158: fractions and fixed-point numbers over any type of integers

The types `Rat<T>` and `Fixed<T, N>` are generic. If the operators of `T`, e.g. a type that a user of the
library defines, do what the operators of integers should do, so do those of `Rat<T>` and most of those of
`Fixed<T, N>`. `v a` is the integer that `a` stands for.
-/

namespace Verif

open RatM (bind_ok)

variable {α : Type} {o : IntOps α} {v : α → Int} {Valid : α → Prop} {Fits : Int → Prop}
  {gcd : α → α → Res α}

/-! ## C157: fractions -/

/-- C157: if the operators of `T` return nothing wrong (they may panic), then neither do those of `Rat<T>`:
`new` is `None` exactly for a zero denominator, and whatever `new`, `+`, `-`, `*`, `/`, unary `-` and `floor`
return is the exact number, where `floor` rounds toward zero. -/
theorem C157_exact (h : Checks o v Valid) (hg : ChecksGcd gcd v Valid) (ng : α → Res α)
    (hng : ∀ a c, Valid a → ng a = .ok c → Valid c ∧ v c = -v a) (a b : α) (ha : Valid a) (hb : Valid b)
    (x y r : RatG α) (hx : RatOk v Valid x) (hy : RatOk v Valid y) :
    (v b = 0 → RatOf.new o gcd a b = .ok none) ∧ (v b ≠ 0 → RatOf.new o gcd a b ≠ .ok none) ∧
    (RatOf.new o gcd a b = .ok (some r) → RatOk v Valid r ∧ ratVal v r = v a / v b) ∧
    (RatOf.add o gcd x y = .ok r → RatOk v Valid r ∧ ratVal v r = ratVal v x + ratVal v y) ∧
    (RatOf.sub o gcd x y = .ok r → RatOk v Valid r ∧ ratVal v r = ratVal v x - ratVal v y) ∧
    (RatOf.mul o gcd x y = .ok r → RatOk v Valid r ∧ ratVal v r = ratVal v x * ratVal v y) ∧
    (RatOf.div o gcd x y = .ok r →
      ratVal v y ≠ 0 ∧ RatOk v Valid r ∧ ratVal v r = ratVal v x / ratVal v y) ∧
    (RatOf.neg ng x = .ok r → RatOk v Valid r ∧ ratVal v r = -ratVal v x) ∧
    (RatOf.floor o gcd x = .ok r → RatOk v Valid r ∧ ratVal v r = truncQ (ratVal v x)) := by
  have hx0 : (v x.denom : ℚ) ≠ 0 := by exact_mod_cast hx.nonzero
  have hy0 : (v y.denom : ℚ) ≠ 0 := by exact_mod_cast hy.nonzero
  obtain ⟨n0, n1, n2⟩ := RatOf.new_val h hg ha hb
  refine ⟨n0, n1, n2 r, fun e => ?_, fun e => ?_, fun e => ?_, fun e => ?_, fun e => ?_, fun e => ?_⟩
  · obtain ⟨s, e1, e⟩ := bind_ok e
    obtain ⟨t, e2, e⟩ := bind_ok e
    obtain ⟨n, e3, e⟩ := bind_ok e
    obtain ⟨d, e4, e⟩ := bind_ok e
    obtain ⟨s1, s2⟩ := h.mul _ _ _ hx.num hy.denom e1
    obtain ⟨t1, t2⟩ := h.mul _ _ _ hy.num hx.denom e2
    obtain ⟨k1, k2⟩ := h.add _ _ _ s1 t1 e3
    obtain ⟨d1, d2⟩ := h.mul _ _ _ hx.denom hy.denom e4
    obtain ⟨-, r1, r2⟩ := RatOf.newUnwrap_val h hg k1 d1 e
    refine ⟨r1, ?_⟩
    rw [r2, k2, d2, s2, t2]
    unfold ratVal
    push_cast
    field_simp
  · obtain ⟨s, e1, e⟩ := bind_ok e
    obtain ⟨t, e2, e⟩ := bind_ok e
    obtain ⟨n, e3, e⟩ := bind_ok e
    obtain ⟨d, e4, e⟩ := bind_ok e
    obtain ⟨s1, s2⟩ := h.mul _ _ _ hx.num hy.denom e1
    obtain ⟨t1, t2⟩ := h.mul _ _ _ hy.num hx.denom e2
    obtain ⟨k1, k2⟩ := h.sub _ _ _ s1 t1 e3
    obtain ⟨d1, d2⟩ := h.mul _ _ _ hx.denom hy.denom e4
    obtain ⟨-, r1, r2⟩ := RatOf.newUnwrap_val h hg k1 d1 e
    refine ⟨r1, ?_⟩
    rw [r2, k2, d2, s2, t2]
    unfold ratVal
    push_cast
    field_simp
  · obtain ⟨n, e3, e⟩ := bind_ok e
    obtain ⟨d, e4, e⟩ := bind_ok e
    obtain ⟨k1, k2⟩ := h.mul _ _ _ hx.num hy.num e3
    obtain ⟨d1, d2⟩ := h.mul _ _ _ hx.denom hy.denom e4
    obtain ⟨-, r1, r2⟩ := RatOf.newUnwrap_val h hg k1 d1 e
    refine ⟨r1, ?_⟩
    rw [r2, k2, d2]
    unfold ratVal
    push_cast
    field_simp
  · obtain ⟨n, e3, e⟩ := bind_ok e
    obtain ⟨d, e4, e⟩ := bind_ok e
    obtain ⟨k1, k2⟩ := h.mul _ _ _ hx.num hy.denom e3
    obtain ⟨d1, d2⟩ := h.mul _ _ _ hx.denom hy.num e4
    obtain ⟨d0, r1, r2⟩ := RatOf.newUnwrap_val h hg k1 d1 e
    have hn : (v y.num : ℚ) ≠ 0 := by
      intro e
      have e' : v y.num = 0 := by exact_mod_cast e
      exact d0 (by rw [d2, e', mul_zero])
    refine ⟨div_ne_zero hn hy0, r1, ?_⟩
    rw [r2, k2, d2]
    unfold ratVal
    push_cast
    field_simp
  · obtain ⟨n, e3, e⟩ := bind_ok e
    cases e
    obtain ⟨k1, k2⟩ := hng _ _ hx.num e3
    refine ⟨⟨k1, hx.denom, hx.nonzero⟩, ?_⟩
    unfold ratVal
    rw [k2]
    push_cast
    ring
  · obtain ⟨s, e1, e⟩ := bind_ok e
    obtain ⟨n, e2, e⟩ := bind_ok e
    obtain ⟨q, e3, e⟩ := bind_ok e
    obtain ⟨-, s1, s2⟩ := h.rem _ _ _ hx.num hx.denom e1
    obtain ⟨k1, k2⟩ := h.sub _ _ _ hx.num s1 e2
    obtain ⟨-, q1, q2⟩ := h.div _ _ _ k1 hx.denom e3
    obtain ⟨-, r1, r2⟩ := RatOf.newUnwrap_val h hg q1 h.one.1 e
    refine ⟨r1, ?_⟩
    rw [r2, h.one.2, q2, k2, s2]
    unfold ratVal
    rw [Fixed.trunc_div _ hx.nonzero]
    have e : v x.num - (v x.num).tmod (v x.denom) = (v x.num).tdiv (v x.denom) * v x.denom := by
      have := Int.tdiv_mul_add_tmod (v x.num) (v x.denom)
      omega
    rw [e, Int.mul_tdiv_cancel _ hx.nonzero]
    simp

/-- C157: if besides the operators of `T` always return, having no bounds, `Rat<T>` computes with all
rational numbers: everything is returned, except that dividing by zero panics. -/
theorem C157_total (h : Checks o v Valid) (hc : Computes o v Valid fun _ => True)
    (hg : ChecksGcd gcd v Valid) (ht : ∀ a b, Valid a → Valid b → ∃ g, gcd a b = .ok g)
    (a b : α) (ha : Valid a) (hb : Valid b) (x y : RatG α) (hx : RatOk v Valid x) (hy : RatOk v Valid y) :
    (v b ≠ 0 → ∃ r, RatOf.new o gcd a b = .ok (some r)) ∧
    (∃ r, RatOf.add o gcd x y = .ok r) ∧ (∃ r, RatOf.sub o gcd x y = .ok r) ∧
    (∃ r, RatOf.mul o gcd x y = .ok r) ∧
    (ratVal v y ≠ 0 → ∃ r, RatOf.div o gcd x y = .ok r) ∧
    (ratVal v y = 0 → RatOf.div o gcd x y = .panic) ∧
    (∃ r, RatOf.floor o gcd x = .ok r) ∧
    (∀ ng : α → Res α, (∀ a, Valid a → ∃ c, ng a = .ok c) → ∃ r, RatOf.neg ng x = .ok r) := by
  have hx0 := hx.nonzero
  have hy0 := hy.nonzero
  obtain ⟨s, e1, s1, s2⟩ := hc.mul _ _ hx.num hy.denom trivial
  obtain ⟨t, e2, t1, t2⟩ := hc.mul _ _ hy.num hx.denom trivial
  obtain ⟨k, e3, k1, k2⟩ := hc.add _ _ s1 t1 trivial
  obtain ⟨l, e4, l1, l2⟩ := hc.sub _ _ s1 t1 trivial
  obtain ⟨d, e5, d1, d2⟩ := hc.mul _ _ hx.denom hy.denom trivial
  obtain ⟨p, e6, p1, p2⟩ := hc.mul _ _ hx.num hy.num trivial
  obtain ⟨q, e7, q1, q2⟩ := hc.mul _ _ hx.denom hy.num trivial
  obtain ⟨f, e8, f1, f2⟩ := hc.rem _ _ hx.num hx.denom hx0 trivial
  obtain ⟨u, e9, u1, u2⟩ := hc.sub _ _ hx.num f1 trivial
  obtain ⟨w, e10, w1, w2⟩ := hc.div _ _ u1 hx.denom hx0 trivial
  have hd0 : v d ≠ 0 := by rw [d2]; exact mul_ne_zero hx0 hy0
  have hy' : ratVal v y = 0 ↔ v y.num = 0 := by
    unfold ratVal
    rw [div_eq_zero_iff]
    constructor
    · rintro (e | e)
      · exact_mod_cast e
      · exact absurd (by exact_mod_cast e) hy0
    · intro e; left; exact_mod_cast e
  have mk : ∀ n d, Valid n → Valid d → v d ≠ 0 → ∃ r, RatOf.newUnwrap o gcd n d = .ok r :=
    fun n d => RatOf.newUnwrap_ok hc hg ht
  refine ⟨fun e => ?_, ?_, ?_, ?_, fun e => ?_, fun e => ?_, ?_, fun ng hn => ?_⟩
  · obtain ⟨r, hr⟩ := mk a b ha hb e
    unfold RatOf.newUnwrap at hr
    obtain ⟨z, z1, z2⟩ := bind_ok hr
    cases z with
    | none => cases z2
    | some z => exact ⟨z, z1⟩
  · unfold RatOf.add
    rw [e1]; dsimp only [Res.bind]; rw [e2]; dsimp only [Res.bind]; rw [e3]; dsimp only [Res.bind]
    rw [e5]
    exact mk _ _ k1 d1 hd0
  · unfold RatOf.sub
    rw [e1]; dsimp only [Res.bind]; rw [e2]; dsimp only [Res.bind]; rw [e4]; dsimp only [Res.bind]
    rw [e5]
    exact mk _ _ l1 d1 hd0
  · unfold RatOf.mul
    rw [e6]; dsimp only [Res.bind]; rw [e5]
    exact mk _ _ p1 d1 hd0
  · unfold RatOf.div
    rw [e1]; dsimp only [Res.bind]; rw [e7]
    exact mk _ _ s1 q1 (by rw [q2]; exact mul_ne_zero hx0 (mt hy'.mpr e))
  · unfold RatOf.div
    rw [e1]; dsimp only [Res.bind]; rw [e7]
    show RatOf.newUnwrap o gcd s q = .panic
    have z := (RatOf.new_val h hg s1 q1).1 (by rw [q2, hy'.mp e, mul_zero])
    unfold RatOf.newUnwrap
    rw [z]
    rfl
  · unfold RatOf.floor
    rw [e8]; dsimp only [Res.bind]; rw [e9]; dsimp only [Res.bind]; rw [e10]
    exact mk _ _ w1 h.one.1 (by rw [h.one.2]; decide)
  · obtain ⟨c, hc⟩ := hn x.num hx.num
    exact ⟨⟨c, x.denom⟩, by unfold RatOf.neg; rw [hc]; rfl⟩

/-! ### The types these theorems are about -/

/-- The primitive integers in debug builds. -/
theorem C157_prim_debug (p : Prim) (hp : 2 ≤ p.bits) :
    Checks (Prim.intOps .debug p) id p.InRange ∧ ChecksGcd (Prim.gcd p) id p.InRange := by
  obtain ⟨b1, b2, b3⟩ := Prim.bounds (p := p) (by omega)
  have h4 : (4 : Int) ≤ 2 ^ p.bits := by
    have : (2 : Int) ^ 2 ≤ 2 ^ p.bits := pow_le_pow_right₀ (by norm_num) hp
    omega
  have h1 : p.InRange 1 := Prim.one_inRange hp
  have ar : ∀ z c, Prim.arith .debug p z = .ok c → p.InRange c ∧ c = z := by
    intro z c e
    obtain ⟨q1, rfl⟩ := RatM.arith_debug e
    exact ⟨q1, rfl⟩
  refine ⟨⟨⟨⟨b1, b2⟩, rfl⟩, ⟨h1, rfl⟩, fun a b c _ _ e => ar _ _ e, fun a b c _ _ e => ar _ _ e,
    fun a b c _ _ e => ar _ _ e, fun a b c ha hb e => ?_, fun a b c ha hb e => ?_,
    fun a b _ _ => decide_eq_true_iff, fun a b c _ _ e => ?_⟩, fun a b g ha hb e => ?_⟩
  · change Prim.div p a b = .ok c at e
    unfold Prim.div at e
    split at e
    · cases e
    split at e
    · cases e
    · rename_i q1 q2
      cases e
      exact ⟨q1, RatM.tdiv_inRange hp ha hb q2, rfl⟩
  · change Prim.rem p a b = .ok c at e
    unfold Prim.rem at e
    split at e
    · cases e
    split at e
    · cases e
    · rename_i q1 q2
      cases e
      exact ⟨q1, Prim.tmod_inRange ha, rfl⟩
  · cases e; rfl
  · by_cases hbad : Prim.GcdBad p a b
    · rw [Prim.gcd_bad hp hbad] at e; cases e
    · obtain ⟨g', e', q1, q2, _⟩ := Prim.gcd_spec hp ha hb hbad
      rw [e'] at e
      cases e
      exact ⟨q2, q1⟩

/-- For primitives the functions are those of `Model/Rat.lean`; `round` if the type has the number 2. -/
theorem RatOf.prim (m : Mode) (p : Prim) (n d : Int) (x y : RatG Int) :
    let c : RatG Int → RatM := fun z => ⟨z.num, z.denom⟩
    let i := Prim.intOps m p
    (RatOf.new i (Prim.gcd p) n d).bind (fun z => .ok (z.map c)) = RatM.new p n d ∧
    (RatOf.add i (Prim.gcd p) x y).bind (fun z => .ok (c z)) = RatM.add m p (c x) (c y) ∧
    (RatOf.sub i (Prim.gcd p) x y).bind (fun z => .ok (c z)) = RatM.sub m p (c x) (c y) ∧
    (RatOf.mul i (Prim.gcd p) x y).bind (fun z => .ok (c z)) = RatM.mul m p (c x) (c y) ∧
    (RatOf.div i (Prim.gcd p) x y).bind (fun z => .ok (c z)) = RatM.div m p (c x) (c y) ∧
    (RatOf.floor i (Prim.gcd p) x).bind (fun z => .ok (c z)) = RatM.floor m p (c x) ∧
    (RatOf.ceil i (Prim.gcd p) x).bind (fun z => .ok (c z)) = RatM.ceil m p (c x) ∧
    (p.InRange 2 →
      (RatOf.round i (Prim.gcd p) x).bind (fun z => .ok (c z)) = RatM.round m p (c x)) := by
  intro c i
  have red : ∀ n d, (RatOf.reduce i (Prim.gcd p) n d).bind (fun z => .ok (c z)) = RatM.reduce p n d := by
    intro n d
    unfold RatOf.reduce RatM.reduce
    simp only [i, Prim.intOps, decide_eq_true_eq, Bool.and_eq_true]
    split_ifs
    · rfl
    · rfl
    · cases Prim.rem p n d with
      | panic => rfl
      | hang => rfl
      | ok r =>
        dsimp only [Res.bind]
        split_ifs
        · rfl
        · cases Prim.rem p d n with
          | panic => rfl
          | hang => rfl
          | ok r =>
            dsimp only [Res.bind]
            split_ifs
            · rfl
            · cases Prim.gcd p n d with
              | panic => rfl
              | hang => rfl
              | ok g =>
                dsimp only [Res.bind]
                cases Prim.div p n g with
                | panic => rfl
                | hang => rfl
                | ok a =>
                  dsimp only [Res.bind]
                  cases Prim.div p d g <;> rfl
  have hnew : ∀ n d, (RatOf.new i (Prim.gcd p) n d).bind (fun z => .ok (z.map c)) = RatM.new p n d := by
    intro n d
    unfold RatOf.new RatM.new
    rw [← red]
    simp only [i, Prim.intOps, decide_eq_true_eq]
    split_ifs
    · rfl
    · cases RatOf.reduce _ (Prim.gcd p) n d <;> rfl
  have unw : ∀ n d, (RatOf.newUnwrap i (Prim.gcd p) n d).bind (fun z => .ok (c z)) =
      RatM.newUnwrap p n d := by
    intro n d
    unfold RatOf.newUnwrap RatM.newUnwrap
    rw [← hnew]
    cases RatOf.new i (Prim.gcd p) n d with
    | panic => rfl
    | hang => rfl
    | ok z => cases z <;> rfl
  have ass : ∀ {β γ δ : Type} (r : Res β) (f : β → Res γ) (g : γ → Res δ),
      (r.bind f).bind g = r.bind fun z => (f z).bind g := by
    intro β γ δ r f g
    cases r <;> rfl
  have one1 : i.one = 1 := rfl
  refine ⟨hnew n d, ?_, ?_, ?_, ?_, ?_, ?_, fun h2 => ?_⟩
  · unfold RatOf.add RatM.add; simp only [ass, unw]; rfl
  · unfold RatOf.sub RatM.sub; simp only [ass, unw]; rfl
  · unfold RatOf.mul RatM.mul; simp only [ass, unw]; rfl
  · unfold RatOf.div RatM.div; simp only [ass, unw]; rfl
  · unfold RatOf.floor RatM.floor; simp only [ass, unw]; rfl
  · unfold RatOf.ceil RatM.ceil; simp only [ass, unw]; rfl
  · unfold RatOf.round RatM.round
    simp only [ass, unw]
    have e : i.add i.one i.one = .ok 2 := Prim.arith_ok m h2
    rw [e]
    dsimp only [Res.bind]
    show Res.bind (Prim.rem p x.num x.denom) _ = Res.bind (Prim.rem p x.num x.denom) _
    cases Prim.rem p x.num x.denom with
    | panic => rfl
    | hang => rfl
    | ok r =>
      show Res.bind (Prim.div p x.denom 2) _ = Res.bind (Prim.div p x.denom 2) _
      cases Prim.div p x.denom 2 with
      | panic => rfl
      | hang => rfl
      | ok half =>
        show Res.bind (Prim.div p x.num x.denom) _ = Res.bind (Prim.div p x.num x.denom) _
        cases Prim.div p x.num x.denom with
        | panic => rfl
        | hang => rfl
        | ok q =>
          dsimp only [Res.bind]
          have : (compare r half = .gt) ↔ r > half := compare_gt_iff_gt
          by_cases hc : r > half
          · rw [if_pos hc, if_pos (this.mpr hc)]; rfl
          · rw [if_neg hc, if_neg (mt this.mp hc)]; rfl

/-- The operators of a type of integers without bounds, as a user might define it. -/
def unboundedOps : IntOps Int where
  zero := 0
  one := 1
  add a b := .ok (a + b)
  sub a b := .ok (a - b)
  mul a b := .ok (a * b)
  div a b := if b = 0 then .panic else .ok (a.tdiv b)
  rem a b := if b = 0 then .panic else .ok (a.tmod b)
  shl a n := .ok (a * 2 ^ n)
  shr a n := .ok (a / 2 ^ n)
  and a b := .ok (a.land b)
  not a := .ok a.lnot
  eq a b := a = b
  cmp a b := .ok (compare a b)

theorem unbounded : Checks unboundedOps id (fun _ => True) ∧
    Computes unboundedOps id (fun _ => True) (fun _ => True) ∧
    ChecksGcd (fun a b => .ok (Int.gcd a b : Int)) id (fun _ : Int => True) := by
  have dv : ∀ a b c, unboundedOps.div a b = .ok c → b ≠ 0 ∧ c = a.tdiv b := by
    intro a b c e
    change (if b = 0 then Res.panic else _) = _ at e
    split at e
    · cases e
    · rename_i q; cases e; exact ⟨q, rfl⟩
  have rm : ∀ a b c, unboundedOps.rem a b = .ok c → b ≠ 0 ∧ c = a.tmod b := by
    intro a b c e
    change (if b = 0 then Res.panic else _) = _ at e
    split at e
    · cases e
    · rename_i q; cases e; exact ⟨q, rfl⟩
  refine ⟨⟨⟨trivial, rfl⟩, ⟨trivial, rfl⟩, ?_, ?_, ?_, ?_, ?_, fun _ _ _ _ => decide_eq_true_iff, ?_⟩,
    ⟨fun _ _ => trivial, fun _ _ _ _ => trivial, ⟨trivial, rfl⟩, ⟨trivial, rfl⟩,
      fun _ _ _ _ _ => ⟨_, rfl, trivial, rfl⟩, fun _ _ _ _ _ => ⟨_, rfl, trivial, rfl⟩,
      fun _ _ _ _ _ => ⟨_, rfl, trivial, rfl⟩, fun _ _ _ _ h _ => ⟨_, if_neg h, trivial, rfl⟩,
      fun _ _ _ _ h _ => ⟨_, if_neg h, trivial, rfl⟩, fun _ _ _ _ => decide_eq_true_iff,
      fun _ _ _ _ => rfl⟩, ?_⟩
  · intro a b c _ _ e; cases e; exact ⟨trivial, rfl⟩
  · intro a b c _ _ e; cases e; exact ⟨trivial, rfl⟩
  · intro a b c _ _ e; cases e; exact ⟨trivial, rfl⟩
  · intro a b c _ _ e; exact ⟨(dv a b c e).1, trivial, (dv a b c e).2⟩
  · intro a b c _ _ e; exact ⟨(rm a b c e).1, trivial, (rm a b c e).2⟩
  · intro a b c _ _ e; cases e; rfl
  · intro a b g _ _ e; cases e; exact ⟨trivial, rfl⟩

example : RatOf.add unboundedOps (fun a b => .ok (Int.gcd a b : Int)) ⟨1, 6⟩ ⟨1, 10⟩ = .ok ⟨4, 15⟩ ∧
    ratVal id (⟨1, 6⟩ : RatG Int) = 1 / 6 ∧ RatOk id (fun _ => True) (⟨1, 6⟩ : RatG Int) :=
  ⟨rfl, by unfold ratVal; norm_num, ⟨trivial, trivial, by decide⟩⟩

/-! ## C158: fixed-point numbers -/

/-- C158: `one` is 1, `from_val` of a number that is representable is that number, sums and differences are
exact if representable, and comparisons are those of the numbers. -/
theorem C158_arith (h : Computes o v Valid Fits) (hbits : ComputesBits o v Valid Fits) (N : Nat)
    (hN : Fits (2 ^ N)) (x y : α) (hx : Valid x) (hy : Valid y) :
    (∃ r, FixedOf.one o N = .ok r ∧ Valid r ∧ fval N (v r) = 1) ∧
    (Fits (v x * 2 ^ N) → ∃ r, FixedOf.fromVal o N x = .ok r ∧ Valid r ∧ fval N (v r) = v x) ∧
    (Fits (v x + v y) → ∃ r, FixedOf.add o x y = .ok r ∧ Valid r ∧
      fval N (v r) = fval N (v x) + fval N (v y)) ∧
    (Fits (v x - v y) → ∃ r, FixedOf.sub o x y = .ok r ∧ Valid r ∧
      fval N (v r) = fval N (v x) - fval N (v y)) ∧
    (FixedOf.eq o x y = true ↔ fval N (v x) = fval N (v y)) ∧
    FixedOf.cmp o x y = .ok (compare (fval N (v x)) (fval N (v y))) := by
  refine ⟨?_, fun f => ?_, fun f => ?_, fun f => ?_, ?_, ?_⟩
  · obtain ⟨r, e, e1, e2⟩ := FixedOf.one_ok h hbits N hN
    refine ⟨r, e, e1, ?_⟩
    have := Fixed.fval_scaled (N := N) 1
    rw [one_mul] at this
    rw [e2, this]; rfl
  · obtain ⟨r, e, e1, e2⟩ := hbits.shl x N hx hN f
    exact ⟨r, e, e1, by rw [e2, Fixed.fval_scaled]⟩
  · obtain ⟨r, e, e1, e2⟩ := h.add x y hx hy f
    exact ⟨r, e, e1, by rw [e2, Fixed.fval_add]⟩
  · obtain ⟨r, e, e1, e2⟩ := h.sub x y hx hy f
    exact ⟨r, e, e1, by rw [e2, Fixed.fval_sub]⟩
  · unfold FixedOf.eq
    rw [h.eq x y hx hy, Fixed.fval_inj]
  · unfold FixedOf.cmp
    rw [h.cmp x y hx hy]
    congr 1
    rcases lt_trichotomy (v x) (v y) with q | q | q
    · rw [compare_lt_iff_lt.mpr q, compare_lt_iff_lt.mpr ((Fixed.fval_lt _ _).mpr q)]
    · rw [compare_eq_iff_eq.mpr q, compare_eq_iff_eq.mpr ((Fixed.fval_inj _ _).mpr q)]
    · rw [compare_gt_iff_gt.mpr q, compare_gt_iff_gt.mpr ((Fixed.fval_lt _ _).mpr q)]

example : FixedOf.one (Prim.intOps .debug ⟨true, 16⟩) 4 = .ok 16 ∧
    FixedOf.sub (Prim.intOps .debug ⟨true, 16⟩) 5 9 = .ok (-4) ∧
    FixedOf.cmp (Prim.intOps .debug ⟨true, 16⟩) (-5) 9 = .ok .lt := by decide

/-- C158: `floor` and `ceil` are the greatest integer below and the least above, if these are
representable. -/
theorem C158_floor_ceil (h : Computes o v Valid Fits) (hbits : ComputesBits o v Valid Fits) (N : Nat)
    (hN : Fits (2 ^ N)) (x : α) (hx : Valid x) (hf : Fits (⌊fval N (v x)⌋ * 2 ^ N)) :
    (∃ r, FixedOf.floor o N x = .ok r ∧ Valid r ∧ fval N (v r) = ⌊fval N (v x)⌋) ∧
    (Fits (⌈fval N (v x)⌉ * 2 ^ N) →
      ∃ r, FixedOf.ceil o N x = .ok r ∧ Valid r ∧ fval N (v r) = ⌈fval N (v x)⌉) := by
  obtain ⟨f, e, f1, f2⟩ := FixedOf.floor_ok h hbits N hN hx hf
  refine ⟨⟨f, e, f1, by rw [f2, Fixed.fval_scaled]⟩, fun hc => ?_⟩
  obtain ⟨r, e, r1, r2⟩ := FixedOf.ceil_ok h hbits N hN hx hf hc
  exact ⟨r, e, r1, by rw [r2, Fixed.fval_scaled]⟩

/-- C158: `trunc` drops the fraction toward zero and `fract` is what it drops; both are always returned. -/
theorem C158_trunc_fract (h : Computes o v Valid Fits) (hbits : ComputesBits o v Valid Fits) (N : Nat)
    (hN : Fits (2 ^ N)) (x : α) (hx : Valid x) :
    ∃ t f, FixedOf.trunc o N x = .ok t ∧ FixedOf.fract o N x = .ok f ∧ Valid t ∧ Valid f ∧
      fval N (v t) = truncQ (fval N (v x)) ∧ fval N (v x) = fval N (v t) + fval N (v f) := by
  obtain ⟨f, e, f1, f2⟩ := FixedOf.fract_ok h hbits N hN hx
  have hdm := Int.tdiv_mul_add_tmod (v x) (2 ^ N)
  have hfit : Fits (v x - v f) := by
    have e1 : v x - v f = v x - (v x).tmod (2 ^ N) := by rw [f2]
    rw [e1]
    refine h.interval _ _ (h.fits x hx) ?_
    have a2 : ((v x).tmod (2 ^ N)).natAbs ≤ (v x).natAbs := by
      rw [Int.natAbs_tmod]; exact Nat.mod_le ..
    rcases le_total 0 (v x) with q | q
    · have a1 := Int.tmod_nonneg (2 ^ N) q
      omega
    · have a1 := Int.tmod_nonneg (2 ^ N) (show 0 ≤ -v x by omega)
      rw [Int.neg_tmod] at a1
      omega
  obtain ⟨t, e', t1, t2⟩ := h.sub x f hx f1 hfit
  refine ⟨t, f, ?_, e, t1, f1, ?_, ?_⟩
  · unfold FixedOf.trunc
    rw [e]
    exact e'
  · rw [Fixed.trunc_fval, ← Fixed.fval_scaled (N := N), t2, f2]
    congr 1
    omega
  · rw [← Fixed.fval_add, t2]
    congr 1
    omega

/-- C158 for `round`, exactly: one half is computed as `one / two`, which is 0 for every integer type, so that whole
numbers stay and everything else is rounded up like `ceil`. Missing, because false: rounding down
(`C158_round_violated`). -/
theorem C158_round_exact_partial (h : Computes o v Valid Fits) (hbits : ComputesBits o v Valid Fits)
    (N : Nat) (hN : Fits (2 ^ (N + 1))) (x : α) (hx : Valid x) (hf : Fits (⌊fval N (v x)⌋ * 2 ^ N))
    (hc : Fits (⌈fval N (v x)⌉ * 2 ^ N))
    (hneg : Fits (2 ^ N - (v x).tmod (2 ^ N))) :
    ∃ r, FixedOf.round o N x = .ok r ∧ Valid r ∧ fval N (v r) = ⌈fval N (v x)⌉ := by
  obtain ⟨r, e, r1, r2⟩ := FixedOf.round_ok h hbits N hN hx hf hc hneg
  exact ⟨r, e, r1, by rw [r2, Fixed.fval_scaled]⟩

/-- C158 is violated by `round` for every type of integers, and any number of at least two fractional bits:
the smallest positive number, `2^-N`, is rounded to 1. -/
theorem C158_round_violated (h : Computes o v Valid Fits) (hbits : ComputesBits o v Valid Fits)
    (N : Nat) (h2 : 2 ≤ N) (hN : Fits (2 ^ (N + 1))) :
    ∃ r, FixedOf.round o N o.one = .ok r ∧ fval N (v r) = 1 ∧ fval N (v o.one) = 1 / 2 ^ N ∧
      1 / 2 < |fval N (v r) - fval N (v o.one)| := by
  have p1 : (1 : Int) < 2 ^ N := by
    have : (2 : Int) ^ 1 < 2 ^ N := pow_lt_pow_right₀ (by norm_num) (by omega)
    omega
  have p2 : (2 : Int) ^ (N + 1) = 2 * 2 ^ N := by rw [pow_succ]; ring
  have hN' : Fits (2 ^ N) := h.interval _ _ hN (.inl ⟨by omega, by omega⟩)
  have ev : v o.one = 1 := h.one.2
  have e1 : ⌊fval N (v o.one)⌋ = 0 := by
    rw [Fixed.floor_fval, ev]; exact Int.ediv_eq_zero_of_lt (by omega) (by omega)
  have e2 : ⌈fval N (v o.one)⌉ = 1 := by
    rw [Fixed.ceil_fval, ev]
    have : (-1 : Int) / 2 ^ N = -1 := Int.ediv_eq_neg_one_of_neg_of_le (by omega) (by omega)
    omega
  have e3 : (v o.one).tmod (2 ^ N) = 1 := by
    rw [ev]; exact Int.tmod_eq_of_lt (by omega) (by omega)
  obtain ⟨r, e, -, q⟩ := C158_round_exact_partial h hbits N hN o.one h.one.1
    (by rw [e1, zero_mul]; exact h.interval _ _ hN (.inl ⟨le_refl _, by omega⟩))
    (by rw [e2, one_mul]; exact hN') (by rw [e3]; exact h.interval _ _ hN (.inl ⟨by omega, by omega⟩))
  have e4 : fval N (v o.one) = 1 / 2 ^ N := by unfold fval; rw [ev]; norm_num
  rw [e2] at q
  refine ⟨r, e, by rw [q]; norm_num, e4, ?_⟩
  rw [q, e4]
  have p4 : (4 : ℚ) ≤ 2 ^ N := by
    have : (2 : ℚ) ^ 2 ≤ 2 ^ N := pow_le_pow_right₀ (by norm_num) h2
    linarith
  have p5 : (1 : ℚ) / 2 ^ N ≤ 1 / 4 := one_div_le_one_div_of_le (by norm_num) p4
  rw [abs_of_nonneg (by push_cast; linarith)]
  push_cast
  linarith

/-! ### The types these theorems are about -/

/-- The primitive integers, in both build modes. -/
theorem C158_prim (m : Mode) (p : Prim) (hp : 2 ≤ p.bits) :
    Computes (Prim.intOps m p) id p.InRange p.InRange ∧
    ComputesBits (Prim.intOps m p) id p.InRange p.InRange := by
  obtain ⟨b1, b2, b3⟩ := Prim.bounds (p := p) (by omega)
  have h4 : (4 : Int) ≤ 2 ^ p.bits := by
    have : (2 : Int) ^ 2 ≤ 2 ^ p.bits := pow_le_pow_right₀ (by norm_num) hp
    omega
  have h1 : p.InRange 1 := Prim.one_inRange hp
  have over : ∀ a b, p.InRange (Int.tdiv a b) → ¬ (p.signed = true ∧ a = p.minV ∧ b = -1) := by
    rintro a b hr ⟨hs, rfl, rfl⟩
    have e : p.minV = -p.maxV - 1 := by unfold Prim.minV Prim.maxV; rw [hs]; simp
    rw [Int.tdiv_neg, Int.tdiv_one] at hr
    unfold Prim.InRange at hr
    omega
  have small : ∀ n, p.InRange (2 ^ n) → n < p.bits := by
    intro n hr
    have : (2 : Int) ^ n < 2 ^ p.bits := by have := hr.2; omega
    exact (pow_lt_pow_iff_right₀ (by norm_num)).mp this
  refine ⟨⟨fun _ hh => hh, fun z z' hz hh => ?_, ⟨⟨b1, b2⟩, rfl⟩, ⟨h1, rfl⟩,
    fun a b _ _ hr => ⟨_, Prim.arith_ok m hr, hr, rfl⟩, fun a b _ _ hr => ⟨_, Prim.arith_ok m hr, hr, rfl⟩,
    fun a b _ _ hr => ⟨_, Prim.arith_ok m hr, hr, rfl⟩,
    fun a b _ _ h0 hr => ⟨_, RatM.div_ok h0 (over a b hr), hr, rfl⟩,
    fun a b ha hb h0 hr => ⟨_, RatM.rem_ok h0 (over a b hr), Prim.tmod_inRange ha, rfl⟩,
    fun _ _ _ _ => decide_eq_true_iff, fun _ _ _ _ => rfl⟩,
    fun a n _ hn hr => ⟨a * 2 ^ n, ?_, hr, rfl⟩, fun a n ha hn => ⟨_, if_pos (small n hn), ?_, rfl⟩,
    fun a k n ha hk hn e => ⟨_, _, rfl, rfl, (Prim.wrap_spec (by omega) _).1, ?_⟩⟩
  · unfold Prim.InRange at *
    omega
  · show Prim.shl m p a n = _
    unfold Prim.shl
    change p.InRange (a * 2 ^ n) at hr
    rw [if_pos (small n hn), Prim.wrap_eq (by omega) hr]
  · unfold Prim.InRange at *
    rcases le_total 0 a with c | c
    · have := Int.ediv_le_self (2 ^ n) c
      have := Int.ediv_nonneg c (show (0 : Int) ≤ 2 ^ n by positivity)
      omega
    · have : a ≤ a / 2 ^ n := by
        rw [Int.le_ediv_iff_mul_le (by positivity)]
        have : (1 : Int) ≤ 2 ^ n := one_le_pow₀ (by norm_num)
        nlinarith
      have : a / 2 ^ n ≤ 0 := Int.ediv_nonpos_of_nonpos_of_neg c (by positivity)
      omega
  · change k = 2 ^ n - 1 at e
    subst e
    exact Fixed.and_not_mask (by omega) (small n hn) ha

example : FixedOf.round (Prim.intOps .debug ⟨true, 16⟩) 4 1 = .ok 16 ∧
    FixedOf.floor (Prim.intOps .debug ⟨true, 16⟩) 4 (-17) = .ok (-32) ∧
    FixedOf.ceil (Prim.intOps .debug ⟨true, 16⟩) 4 (-17) = .ok (-16) ∧
    (⟨true, 16⟩ : Prim).InRange (2 ^ (4 + 1)) := by decide

end Verif
