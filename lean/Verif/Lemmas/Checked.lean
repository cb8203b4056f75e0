import Verif.Spec.Checked
import Verif.Lemmas.Prim

/-!
# Lemmas about computations with primitive integers
-/

namespace Verif

variable {m : Mode} {p : Prim}

theorem arith_ok {z : Int} (hz : p.InRange z) : Prim.arith m p z = .ok z := by
  unfold Prim.arith; rw [if_pos hz]

theorem arith_release (hb : 0 < p.bits) (z : Int) :
    Prim.arith .release p z = .ok (p.wrap z) := by
  unfold Prim.arith
  split
  · rename_i h; rw [Prim.wrap_eq hb h]
  · rfl

theorem arith_debug {z : Int} (hz : ¬ p.InRange z) : Prim.arith .debug p z = .panic := by
  unfold Prim.arith; rw [if_neg hz]

theorem tracks_arith (hb : 0 < p.bits) {z w : Int} (h : w ≡ z [ZMOD 2 ^ p.bits])
    (hd : m = .debug → w = z) : Tracks m p (Prim.arith m p w) z := by
  cases m with
  | release =>
    rw [arith_release hb]
    obtain ⟨h1, h2⟩ := Prim.wrap_spec hb w
    refine ⟨nofun, fun v hv => ?_, fun _ => ⟨_, rfl⟩, nofun⟩
    cases hv
    exact ⟨h1, (Int.modEq_iff_dvd.mpr h2).symm.trans h⟩
  | debug =>
    have := hd rfl
    subst this
    by_cases hz : p.InRange w
    · rw [arith_ok hz]
      exact ⟨nofun, fun v hv => by cases hv; exact ⟨hz, rfl⟩, nofun, fun _ v hv => by cases hv; rfl⟩
    · rw [arith_debug hz]
      exact ⟨nofun, nofun, nofun, nofun⟩

theorem tracks_of {z : Int} (hz : p.InRange z) : Tracks m p (Chk.of z : Chk m p).res z :=
  ⟨nofun, fun v hv => by cases hv; exact ⟨hz, rfl⟩, fun _ => ⟨z, rfl⟩, fun _ v hv => by cases hv; rfl⟩

theorem tracks_lift₂ (hb : 0 < p.bits) (f : Int → Int → Int)
    (hf : ∀ x y x' y', x ≡ x' [ZMOD 2 ^ p.bits] → y ≡ y' [ZMOD 2 ^ p.bits] →
      f x y ≡ f x' y' [ZMOD 2 ^ p.bits])
    {a b : Chk m p} {z w : Int} (ha : Tracks m p a.res z) (hb' : Tracks m p b.res w) :
    Tracks m p (Chk.lift₂ (fun x y => Prim.arith m p (f x y)) a b).res (f z w) := by
  obtain ⟨a1, a2, a3, a4⟩ := ha
  obtain ⟨b1, b2, b3, b4⟩ := hb'
  unfold Chk.lift₂
  cases ea : a.res with
  | hang => exact absurd ea a1
  | panic => exact ⟨nofun, nofun, fun h => (by obtain ⟨v, hv⟩ := a3 h; rw [ea] at hv; cases hv), nofun⟩
  | ok x =>
    cases eb : b.res with
    | hang => exact absurd eb b1
    | panic =>
      exact ⟨nofun, nofun, fun h => (by obtain ⟨v, hv⟩ := b3 h; rw [eb] at hv; cases hv), nofun⟩
    | ok y =>
      simp only [Res.bind]
      exact tracks_arith hb (hf _ _ _ _ (a2 x ea).2 (b2 y eb).2)
        fun h => by rw [a4 h x ea, b4 h y eb]

theorem tracks_add (hb : 0 < p.bits) {a b : Chk m p} {z w : Int} (ha : Tracks m p a.res z)
    (hb' : Tracks m p b.res w) : Tracks m p (a + b).res (z + w) :=
  tracks_lift₂ hb (· + ·) (fun _ _ _ _ h1 h2 => h1.add h2) ha hb'

theorem tracks_sub (hb : 0 < p.bits) {a b : Chk m p} {z w : Int} (ha : Tracks m p a.res z)
    (hb' : Tracks m p b.res w) : Tracks m p (a - b).res (z - w) :=
  tracks_lift₂ hb (· - ·) (fun _ _ _ _ h1 h2 => h1.sub h2) ha hb'

theorem tracks_mul (hb : 0 < p.bits) {a b : Chk m p} {z w : Int} (ha : Tracks m p a.res z)
    (hb' : Tracks m p b.res w) : Tracks m p (a * b).res (z * w) :=
  tracks_lift₂ hb (· * ·) (fun _ _ _ _ h1 h2 => h1.mul h2) ha hb'

theorem tracks_foldl (hb : 0 < p.bits) (cs : List (Chk m p)) (zs : List Int)
    (h : List.Forall₂ (fun c z => Tracks m p c.res z) cs zs) (acc : Chk m p) (z : Int)
    (hacc : Tracks m p acc.res z) :
    Tracks m p (cs.foldl (fun a v => a + v) acc).res (z + zs.sum) := by
  induction h generalizing acc z with
  | nil => simpa using hacc
  | cons h1 _ ih =>
    rw [List.foldl_cons, List.sum_cons, ← add_assoc]
    exact ih _ _ (tracks_add hb hacc h1)

theorem panic_add (b : Chk m p) : (⟨.panic⟩ : Chk m p) + b = ⟨.panic⟩ := rfl

theorem foldl_panic (cs : List (Chk m p)) :
    cs.foldl (fun a v => a + v) ⟨.panic⟩ = (⟨.panic⟩ : Chk m p) := by
  induction cs with
  | nil => rfl
  | cons c cs ih => rw [List.foldl_cons, panic_add, ih]

/-- Adding up in a debug build returns exactly if everything fits. -/
theorem foldl_debug (zs : List Int) (acc : Int) (hacc : p.InRange acc) :
    (∃ v, ((zs.map fun z => (⟨Prim.arith .debug p z⟩ : Chk .debug p)).foldl (fun a v => a + v)
      (Chk.of acc)).res = .ok v) ↔
    (∀ x ∈ zs, p.InRange x) ∧ ∀ k ≤ zs.length, p.InRange (acc + (zs.take k).sum) := by
  induction zs generalizing acc with
  | nil => simpa [Chk.of] using hacc
  | cons z zs ih =>
    rw [List.map_cons, List.foldl_cons]
    by_cases hz : p.InRange z
    · have e : (Chk.of acc + ⟨Prim.arith .debug p z⟩ : Chk .debug p) =
          ⟨Prim.arith .debug p (acc + z)⟩ := by
        rw [arith_ok hz]; rfl
      rw [e]
      by_cases hs : p.InRange (acc + z)
      · rw [arith_ok hs]
        have := ih (acc + z) hs
        unfold Chk.of at this
        rw [this]
        constructor
        · rintro ⟨h1, h2⟩
          refine ⟨fun x hx => ?_, fun k hk => ?_⟩
          · rcases List.mem_cons.mp hx with rfl | hx
            · exact hz
            · exact h1 x hx
          · cases k with
            | zero => simpa using hacc
            | succ k =>
              rw [List.take_succ_cons, List.sum_cons, ← add_assoc]
              exact h2 k (by simpa using hk)
        · rintro ⟨h1, h2⟩
          refine ⟨fun x hx => h1 x (List.mem_cons_of_mem _ hx), fun k hk => ?_⟩
          have := h2 (k + 1) (by simpa using hk)
          rwa [List.take_succ_cons, List.sum_cons, ← add_assoc] at this
      · rw [arith_debug hs, foldl_panic]
        refine ⟨fun ⟨v, hv⟩ => (by cases hv), fun ⟨_, h2⟩ => absurd ?_ hs⟩
        have := h2 1 (by simp)
        simpa using this
    · have e : (Chk.of acc + ⟨Prim.arith .debug p z⟩ : Chk .debug p) = ⟨.panic⟩ := by
        rw [arith_debug hz]; rfl
      rw [e, foldl_panic]
      refine ⟨fun ⟨v, hv⟩ => (by cases hv), fun ⟨h1, _⟩ => absurd (h1 z (by simp)) hz⟩

end Verif
