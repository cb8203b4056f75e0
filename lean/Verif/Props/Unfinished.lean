import Verif.Model.IInt
import Verif.Model.CheckedNum
import Verif.Model.Vector
import Verif.Model.Complex

/-!
# Operations without an implementation (C137, C138)
-/

namespace Verif

/-- C137 is violated by all operands, such as 0 and 0: shifts, powers, checked and saturating
arithmetic of `I<N>` panic. Nothing else of C137 can hold then. -/
theorem C137_violated (a b : Bytes) (k : Nat) :
    (IN.shl a b = .panic ∧ IN.shr a b = .panic ∧ IN.shlUsize a k = .panic ∧ IN.shrUsize a k = .panic) ∧
    (IN.checkedAdd a b = .panic ∧ IN.checkedSub a b = .panic ∧ IN.checkedMul a b = .panic ∧
      IN.checkedDiv a b = .panic) ∧
    (IN.saturatingAdd a b = .panic ∧ IN.saturatingSub a b = .panic ∧ IN.saturatingMul a b = .panic) ∧
    IN.pow a b = .panic :=
  ⟨⟨rfl, rfl, rfl, rfl⟩, ⟨rfl, rfl, rfl, rfl⟩, ⟨rfl, rfl, rfl⟩, rfl⟩

private theorem bind_stuck {α β : Type} {r : Res α} {g : α → Res β} (h : ∀ a v, g a ≠ .ok v) (v : β) :
    r.bind g ≠ .ok v := by
  cases r with
  | ok a => exact h a v
  | panic => intro e; cases e
  | hang => intro e; cases e

/-- C138 is violated by all fractions, such as 0 and 0: comparing, remainders, powers, truncation,
fractional parts, logarithms and roots panic. -/
theorem C138_rat_violated (m : Mode) (p : Prim) (a b : RatM) :
    RatM.cmp a b = .panic ∧ RatM.ratRem a b = .panic ∧ RatM.pow a b = .panic ∧ RatM.log a b = .panic ∧
    RatM.trunc a = .panic ∧ RatM.fract a = .panic ∧ RatM.sqrt a = .panic ∧
    (∀ v, RatM.root m p a b ≠ .ok v) ∧ ∀ v, RatM.cbrt m p a ≠ .ok v :=
  ⟨rfl, rfl, rfl, rfl, rfl, rfl, rfl, bind_stuck fun _ _ h => (by cases h),
    bind_stuck fun _ => bind_stuck fun _ => bind_stuck fun _ _ h => by cases h⟩

/-- C138 is violated by all fixed-point numbers: powers, logarithms and roots panic. -/
theorem C138_fixed_violated (m : Mode) (p : Prim) (N : Nat) (a b : Int) :
    Fixed.pow a b = .panic ∧ Fixed.log a b = .panic ∧ (∀ v, Fixed.sqrt m p N a ≠ .ok v) ∧
    (∀ v, Fixed.root m p N a b ≠ .ok v) ∧ ∀ v, Fixed.cbrt m p N a ≠ .ok v := by
  refine ⟨rfl, rfl, fun v h => ?_, bind_stuck fun _ => bind_stuck fun _ _ h => (by cases h),
    bind_stuck fun _ => bind_stuck fun _ => bind_stuck fun _ => bind_stuck fun _ _ h => by cases h⟩
  unfold Fixed.sqrt at h
  cases h1 : Fixed.one m p N <;> rw [h1] at h <;> simp only [Res.bind] at h <;> try contradiction
  rename_i e
  cases h2 : Prim.arith m p (e + e) <;> rw [h2] at h <;> simp only at h <;> try contradiction
  rename_i t
  cases h3 : Fixed.div p e t <;> rw [h3] at h <;> simp only at h <;> contradiction

private theorem foldl_stuck {α : Type} {o : NumOps α} (l : List (Comp o)) (s : Comp o)
    (h : (∀ v, s.res ≠ .ok v) ∨ ∃ c ∈ l, ∀ v, c.res ≠ .ok v) (v : α) :
    (l.foldl (fun a c => a + c) s).res ≠ .ok v := by
  induction l generalizing s with
  | nil =>
    rcases h with h | ⟨c, hc, _⟩
    · exact h v
    · simp at hc
  | cons c l ih =>
    rw [List.foldl_cons]
    apply ih
    have key : ∀ v, (s + c).res = .ok v → (∃ x, s.res = .ok x) ∧ ∃ y, c.res = .ok y := by
      intro v hv
      change (s.res.bind fun x => c.res.bind fun y => o.add x y) = .ok v at hv
      cases h1 : s.res <;> rw [h1] at hv <;> simp only [Res.bind] at hv <;> try contradiction
      cases h2 : c.res <;> rw [h2] at hv <;> simp only at hv <;> try contradiction
      exact ⟨⟨_, rfl⟩, ⟨_, rfl⟩⟩
    rcases h with h | ⟨d, hd, h⟩
    · exact .inl fun v hv => by obtain ⟨⟨x, hx⟩, _⟩ := key v hv; exact h x hx
    · rcases List.mem_cons.mp hd with rfl | hd
      · exact .inl fun v hv => by obtain ⟨_, ⟨y, hy⟩⟩ := key v hv; exact h y hy
      · exact .inr ⟨d, hd, h⟩

private theorem distance_stuck {α : Type} {o : NumOps α} (pow : α → α → Res α)
    (hp : ∀ x y v, pow x y ≠ .ok v) (a b : List (Comp o)) (ha : a ≠ []) (hb : b ≠ []) (v : α) :
    (Vect.distanceSquared (Comp.lift₂ pow) a b).res ≠ .ok v := by
  obtain ⟨x, a, rfl⟩ := List.exists_cons_of_ne_nil ha
  obtain ⟨y, b, rfl⟩ := List.exists_cons_of_ne_nil hb
  unfold Vect.distanceSquared
  refine foldl_stuck _ _ (.inr ⟨Comp.lift₂ pow (x - y) (1 + 1), ?_, fun v hv => ?_⟩) v
  · exact List.mem_cons_self
  · change ((x - y).res.bind fun s => (1 + 1 : Comp o).res.bind fun t => pow s t) = .ok v at hv
    cases h1 : (x - y).res <;> rw [h1] at hv <;> simp only [Res.bind] at hv <;> try contradiction
    cases h2 : (1 + 1 : Comp o).res <;> rw [h2] at hv <;> simp only at hv <;> try contradiction
    exact hp _ _ _ hv

/-- C138 is violated by all vectors of at least one component: `distance_squared` of vectors of fractions
or fixed-point numbers does not return, so neither does `distance`. -/
theorem C138_distance_violated (m : Mode) (p : Prim) (N : Nat) :
    (∀ (a b : List RatM), a ≠ [] → b ≠ [] → ∀ v,
      (Vect.distanceSquared (Comp.lift₂ RatM.pow) (a.map (Comp.of (o := RatM.ops m p)))
        (b.map Comp.of)).res ≠ .ok v) ∧
    (∀ (a b : List Int), a ≠ [] → b ≠ [] → ∀ v,
      (Vect.distanceSquared (Comp.lift₂ Fixed.pow) (a.map (Comp.of (o := Fixed.ops m p N)))
        (b.map Comp.of)).res ≠ .ok v) :=
  ⟨fun _ _ ha hb => distance_stuck _ (fun _ _ _ h => by cases h) _ _ (by simpa using ha) (by simpa using hb),
    fun _ _ ha hb => distance_stuck _ (fun _ _ _ h => by cases h) _ _ (by simpa using ha) (by simpa using hb)⟩

/-- C138: only the distance of vectors without components is computed. -/
theorem C138_distance_partial (m : Mode) (p : Prim) (N : Nat) :
    (Vect.distanceSquared (Comp.lift₂ RatM.pow) ([] : List (Comp (RatM.ops m p))) []).res =
      .ok RatM.zero ∧
    (Vect.distanceSquared (Comp.lift₂ Fixed.pow) ([] : List (Comp (Fixed.ops m p N))) []).res =
      .ok Fixed.zero :=
  ⟨rfl, rfl⟩

/-- C138 is violated by all complex numbers of fractions or fixed-point numbers: `abs` does not return. -/
theorem C138_complex_abs_violated (m : Mode) (p : Prim) (N : Nat) :
    (∀ (z : Complex (Comp (RatM.ops m p))) v,
      (Complex.abs (fun c => ⟨c.res.bind RatM.sqrt⟩) z).res ≠ .ok v) ∧
    (∀ (z : Complex (Comp (Fixed.ops m p N))) v,
      (Complex.abs (fun c => ⟨c.res.bind (Fixed.sqrt m p N)⟩) z).res ≠ .ok v) := by
  constructor
  · intro z v h
    change z.absSquared.res.bind RatM.sqrt = .ok v at h
    cases hs : z.absSquared.res <;> rw [hs] at h <;> cases h
  · intro z v h
    change z.absSquared.res.bind (Fixed.sqrt m p N) = .ok v at h
    cases hs : z.absSquared.res <;> rw [hs] at h <;> simp only [Res.bind] at h <;> try contradiction
    exact (C138_fixed_violated m p N _ 0).2.2.1 v h

end Verif
