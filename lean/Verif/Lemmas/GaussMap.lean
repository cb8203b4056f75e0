import Verif.Lemmas.Matrix

/-!
# Maps of component types that commute with the operations

`gauss_elim!` decides by `is_zero`, `<` and `partial_cmp` only, and divides by pivots, which are not zero.
A map of components that commutes with all that, and with divisions by what is not zero, commutes with
the whole elimination.
-/

namespace Verif

namespace GaussMap

/-- A result, its value being mapped. -/
def mapR {α β : Type} (φ : α → β) (r : Res α) : Res β := r.bind fun a => .ok (φ a)

@[simp] theorem mapR_ok {α β : Type} (φ : α → β) (a : α) : mapR φ (.ok a) = .ok (φ a) := rfl
@[simp] theorem mapR_panic {α β : Type} (φ : α → β) : mapR φ (.panic : Res α) = .panic := rfl
@[simp] theorem mapR_hang {α β : Type} (φ : α → β) : mapR φ (.hang : Res α) = .hang := rfl

theorem bind_map {α β γ δ : Type} {φ : α → β} {ψ : γ → δ} {r : Res α} {F : α → Res γ} {G : β → Res δ}
    (h : ∀ a, r = .ok a → G (φ a) = mapR ψ (F a)) : (mapR φ r).bind G = mapR ψ (r.bind F) := by
  cases r with
  | ok a => exact h a rfl
  | panic => rfl
  | hang => rfl

theorem forUpM_map {σ τ : Type} {ψ : σ → τ} {F : Nat → σ → Res σ} {G : Nat → τ → Res τ} (I : σ → Prop) (n : Nat)
    {s : σ} (h0 : I s)
    (h : ∀ i s, i < n → I s → G i (ψ s) = mapR ψ (F i s) ∧ ∀ s', F i s = .ok s' → I s') :
    forUpM n G (ψ s) = mapR ψ (forUpM n F s) ∧ ∀ s', forUpM n F s = .ok s' → I s' := by
  induction n with
  | zero =>
    refine ⟨rfl, fun s' e => ?_⟩
    cases e
    exact h0
  | succ n ih =>
    obtain ⟨h1, h2⟩ := ih fun i s hi => h i s (by omega)
    rw [forUpM, forUpM, h1]
    refine ⟨bind_map fun a ha => (h n a (by omega) (h2 a ha)).1, fun s' e => ?_⟩
    cases e1 : forUpM n F s with
    | ok a =>
      rw [e1] at e
      exact (h n a (by omega) (h2 a e1)).2 s' e
    | panic => rw [e1] at e; cases e
    | hang => rw [e1] at e; cases e

theorem forUpM_map' {σ τ : Type} {ψ : σ → τ} {F : Nat → σ → Res σ} {G : Nat → τ → Res τ} (n : Nat) (s : σ)
    (h : ∀ i s, G i (ψ s) = mapR ψ (F i s)) : forUpM n G (ψ s) = mapR ψ (forUpM n F s) :=
  (forUpM_map (fun _ => True) n trivial fun i s _ _ => ⟨h i s, fun _ _ => trivial⟩).1

section

variable {α β : Type} [One α] [Neg α] [Sub α] [Mul α] [Div α] [ZeroTest α] [LT α] [DecidableLT α] [PartialCmp α]
  [One β] [Neg β] [Sub β] [Mul β] [Div β] [ZeroTest β] [LT β] [DecidableLT β] [PartialCmp β]

/-- A map that commutes with what the elimination does to components. -/
structure Hom (φ : α → β) : Prop where
  one : φ 1 = 1
  neg : ∀ a, φ (-a) = -φ a
  sub : ∀ a b, φ (a - b) = φ a - φ b
  mul : ∀ a b, φ (a * b) = φ a * φ b
  div : ∀ a b, ¬ ZeroTest.IsZero b → φ (a / b) = φ a / φ b
  zero : ∀ a, ZeroTest.IsZero (φ a) ↔ ZeroTest.IsZero a
  lt : ∀ a b, φ a < φ b ↔ a < b
  cmp : ∀ a b, PartialCmp.comparable (φ a) (φ b) = PartialCmp.comparable a b

/-- Two kinds of matrices, the one mapped to the other. -/
structure OpsMap {M N : Type} (o : MatOps M α) (p : MatOps N β) (φ : α → β) (ψ : M → N) : Prop where
  get : ∀ m i j, p.get (ψ m) i j = mapR φ (o.get m i j)
  set : ∀ m i j v, p.set (ψ m) i j (φ v) = mapR ψ (o.set m i j v)
  swap : ∀ m a b, p.swapRows (ψ m) a b = mapR ψ (o.swapRows m a b)

/-- After `swap_rows` the one row is where the other was, for the indices used; `I` says which matrices
occur. -/
structure Swaps {M : Type} (o : MatOps M α) (cols rows : Nat) (I : M → Prop) : Prop where
  set : ∀ m i j v m', I m → o.set m i j v = .ok m' → I m'
  swap : ∀ m a b m', I m → a < rows → b < rows → o.swapRows m a b = .ok m' → I m'
  row : ∀ m a b m' j, I m → a < rows → b < rows → j < cols → o.swapRows m a b = .ok m' →
    o.get m' b j = o.get m a j

variable {M N : Type} {o : MatOps M α} {p : MatOps N β} {φ : α → β} {ψ : M → N}

omit [One α] [Neg α] [Sub α] [Mul α] [Div α] [LT α] [DecidableLT α] [PartialCmp α]
  [One β] [Neg β] [Sub β] [Mul β] [Div β] [LT β] [DecidableLT β] [PartialCmp β] in
theorem allZero_map (hz : ∀ a, ZeroTest.IsZero (φ a) ↔ ZeroTest.IsZero a) (ho : OpsMap o p φ ψ) (m : M)
    (col n r : Nat) : p.allZero (ψ m) col n r = o.allZero m col n r := by
  induction n generalizing r with
  | zero => rfl
  | succ n ih =>
    rw [MatOps.allZero, MatOps.allZero, ho.get]
    cases o.get m r col with
    | ok v =>
      simp only [mapR_ok, Res.bind, hz, ih]
    | panic => rfl
    | hang => rfl

theorem smallIdx_map (hφ : Hom φ) (ho : OpsMap o p φ ψ) (m : M) (col row rows : Nat) :
    p.smallIdx (ψ m) col row rows = o.smallIdx m col row rows := by
  unfold MatOps.smallIdx
  have key := forUpM_map' (ψ := Option.map fun q : Nat × α => (q.1, φ q.2))
    (F := fun idx best => (o.get m (row + idx) col).bind fun v =>
      if MatOps.clash best v then .panic else .ok (MatOps.keepMin best idx v))
    (G := fun idx best => (p.get (ψ m) (row + idx) col).bind fun v =>
      if MatOps.clash best v then .panic else .ok (MatOps.keepMin best idx v)) (rows - row) none (by
      intro i best
      rw [ho.get]
      refine bind_map fun v _ => ?_
      have hc : MatOps.clash (best.map fun q : Nat × α => (q.1, φ q.2)) (φ v) = MatOps.clash best v := by
        cases best with
        | none => rfl
        | some q => simp only [MatOps.clash, Option.map, hφ.zero, hφ.cmp]
      have hk : MatOps.keepMin (best.map fun q : Nat × α => (q.1, φ q.2)) i (φ v) =
          (MatOps.keepMin best i v).map fun q => (q.1, φ q.2) := by
        cases best with
        | none =>
          simp only [MatOps.keepMin, Option.map, hφ.zero]
          split <;> rfl
        | some q =>
          simp only [MatOps.keepMin, Option.map, hφ.zero, hφ.lt]
          split
          · rfl
          · split <;> rfl
      rw [hc, hk]
      split <;> rfl)
  simp only [Option.map_none] at key
  rw [key]
  cases forUpM (rows - row) (fun idx best => (o.get m (row + idx) col).bind fun v =>
      if MatOps.clash best v then .panic else .ok (MatOps.keepMin best idx v)) none with
  | ok best => cases best <;> rfl
  | panic => rfl
  | hang => rfl

omit [One α] [Neg α] [Sub α] [Mul α] [Div α] in
/-- The search for the pivot finds an entry that is not zero. -/
theorem smallIdx_nonzero {m : M} {col row rows s : Nat} (e : o.smallIdx m col row rows = .ok s) :
    s < rows ∧ ∃ v, o.get m s col = .ok v ∧ ¬ ZeroTest.IsZero v := by
  unfold MatOps.smallIdx at e
  have key : ∀ n best, forUpM n (fun idx best => (o.get m (row + idx) col).bind fun v =>
      if MatOps.clash best v then .panic else .ok (MatOps.keepMin best idx v)) none = .ok best →
      ∀ idx w, best = some (idx, w) → idx < n ∧ o.get m (row + idx) col = .ok w ∧ ¬ ZeroTest.IsZero w := by
    intro n
    induction n with
    | zero =>
      intro best e idx w hb
      simp only [forUpM, Res.ok.injEq] at e
      rw [← e] at hb
      cases hb
    | succ n ih =>
      intro best e
      rw [forUpM] at e
      cases e1 : forUpM n (fun idx best => (o.get m (row + idx) col).bind fun v =>
          if MatOps.clash best v then .panic else .ok (MatOps.keepMin best idx v)) none with
      | panic => rw [e1] at e; cases e
      | hang => rw [e1] at e; cases e
      | ok b1 =>
        rw [e1] at e
        simp only [Res.bind] at e
        have h2 := ih b1 e1
        cases eg : o.get m (row + n) col with
        | panic => rw [eg] at e; cases e
        | hang => rw [eg] at e; cases e
        | ok v =>
          rw [eg] at e
          simp only at e
          split at e
          · cases e
          · simp only [Res.ok.injEq] at e
            subst e
            intro idx w hb
            unfold MatOps.keepMin at hb
            by_cases hz : ZeroTest.IsZero v
            · rw [if_pos hz] at hb
              obtain ⟨a, b, c⟩ := h2 idx w hb
              exact ⟨by omega, b, c⟩
            · rw [if_neg hz] at hb
              split at hb
              · simp only [Option.some.injEq, Prod.mk.injEq] at hb
                obtain ⟨rfl, rfl⟩ := hb
                exact ⟨by omega, eg, hz⟩
              · split at hb
                · simp only [Option.some.injEq, Prod.mk.injEq] at hb
                  obtain ⟨rfl, rfl⟩ := hb
                  exact ⟨by omega, eg, hz⟩
                · obtain ⟨a, b, c⟩ := h2 idx w hb
                  exact ⟨by omega, b, c⟩
  cases e1 : forUpM (rows - row) (fun idx best => (o.get m (row + idx) col).bind fun v =>
        if MatOps.clash best v then .panic else .ok (MatOps.keepMin best idx v)) none with
  | panic => rw [e1] at e; cases e
  | hang => rw [e1] at e; cases e
  | ok best =>
    rw [e1] at e
    simp only [Res.bind] at e
    cases best with
    | none => cases e
    | some q =>
      obtain ⟨idx, w⟩ := q
      simp only [Res.ok.injEq] at e
      subst e
      obtain ⟨a, b, c⟩ := key _ _ e1 idx w rfl
      rw [Nat.add_comm] at b
      exact ⟨by omega, w, b, c⟩

theorem elimRow_map (hφ : Hom φ) (ho : OpsMap o p φ ψ) (m : M) (col cols row r : Nat) (x : α) :
    p.elimRow col cols row r (φ x) (ψ m) = mapR ψ (o.elimRow col cols row r x m) := by
  unfold MatOps.elimRow
  refine forUpM_map' _ _ fun i m => ?_
  simp only [ho.get]
  refine bind_map fun a _ => bind_map fun b _ => ?_
  rw [← hφ.mul, ← hφ.sub, ho.set]

theorem elimBelow_map (hφ : Hom φ) (ho : OpsMap o p φ ψ) (m : M) (col cols row rows : Nat) (t : α)
    (ht : ¬ ZeroTest.IsZero t) :
    p.elimBelow col cols row rows (φ t) (ψ m) = mapR ψ (o.elimBelow col cols row rows t m) := by
  unfold MatOps.elimBelow
  refine forUpM_map' _ _ fun i m => ?_
  simp only [ho.get]
  refine bind_map fun a _ => ?_
  rw [← hφ.div a t ht, elimRow_map hφ ho]

variable {cols rows : Nat} {I : M → Prop}

theorem keeps {σ : Type} {F : Nat → σ → Res σ} {J : σ → Prop} {n : Nat} {s s' : σ} (h0 : J s)
    (h : ∀ i s s', J s → F i s = .ok s' → J s') (e : forUpM n F s = .ok s') : J s' := by
  induction n generalizing s' with
  | zero => cases e; exact h0
  | succ n ih =>
    rw [forUpM] at e
    cases e1 : forUpM n F s with
    | ok a => rw [e1] at e; exact h n a s' (ih e1) e
    | panic => rw [e1] at e; cases e
    | hang => rw [e1] at e; cases e

theorem bind_ok {σ τ : Type} {r : Res σ} {F : σ → Res τ} {b : τ} (e : r.bind F = .ok b) :
    ∃ a, r = .ok a ∧ F a = .ok b := by
  cases r with
  | ok a => exact ⟨a, rfl, e⟩
  | panic => cases e
  | hang => cases e

omit [One α] [Neg α] [Div α] [ZeroTest α] [LT α] [DecidableLT α] [PartialCmp α] in
theorem elimRow_keeps (hs : Swaps o cols rows I) {m m' : M} {col row r : Nat} {x : α} (h0 : I m)
    (e : o.elimRow col cols row r x m = .ok m') : I m' := by
  unfold MatOps.elimRow at e
  refine keeps h0 (fun i s s' hi e => ?_) e
  obtain ⟨a, -, e⟩ := bind_ok e
  obtain ⟨b, -, e⟩ := bind_ok e
  exact hs.set _ _ _ _ _ hi e

omit [One α] [Neg α] [ZeroTest α] [LT α] [DecidableLT α] [PartialCmp α] in
theorem elimBelow_keeps (hs : Swaps o cols rows I) {m m' : M} {col row : Nat} {t : α} (h0 : I m)
    (e : o.elimBelow col cols row rows t m = .ok m') : I m' := by
  unfold MatOps.elimBelow at e
  refine keeps h0 (fun i s s' hi e => ?_) e
  obtain ⟨a, -, e⟩ := bind_ok e
  exact elimRow_keeps hs hi e

/-- A map of states. -/
def mapS (φ : α → β) (ψ : M → N) (s : MatOps.GState M α) : MatOps.GState N β := ⟨ψ s.m, s.row, φ s.factor⟩

theorem gaussStep_map (hφ : Hom φ) (ho : OpsMap o p φ ψ) (hs : Swaps o cols rows I) {col : Nat} (hc : col < cols)
    (s : MatOps.GState M α) (hI : I s.m) :
    p.gaussStep cols rows col (mapS φ ψ s) = mapR (mapS φ ψ) (o.gaussStep cols rows col s) ∧
    ∀ s', o.gaussStep cols rows col s = .ok s' → I s'.m := by
  unfold MatOps.gaussStep
  simp only [mapS, allZero_map hφ.zero ho, smallIdx_map hφ ho]
  cases o.allZero s.m col (rows - s.row) s.row with
  | panic => exact ⟨rfl, nofun⟩
  | hang => exact ⟨rfl, nofun⟩
  | ok z =>
    cases z with
    | true =>
      refine ⟨rfl, fun s' e => ?_⟩
      cases e
      exact hI
    | false =>
      simp only [Res.bind, Bool.false_eq_true, if_false]
      cases e1 : o.smallIdx s.m col s.row rows with
      | panic => exact ⟨rfl, nofun⟩
      | hang => exact ⟨rfl, nofun⟩
      | ok small =>
        obtain ⟨hlt, v, hv, hz⟩ := smallIdx_nonzero e1
        have hrow : s.row < rows := by
          have := e1
          unfold MatOps.smallIdx at this
          by_contra hh
          rw [Nat.sub_eq_zero_of_le (by omega)] at this
          cases this
        -- the pivot
        have hp : p.pivot (mapS φ ψ s) small = mapR (mapS φ ψ) (o.pivot s small) := by
          by_cases hh : small ≠ s.row
          · have a : p.pivot (mapS φ ψ s) small = (p.swapRows (ψ s.m) small s.row).bind fun m =>
              .ok ⟨m, s.row, -φ s.factor⟩ := if_pos hh
            have b : o.pivot s small = (o.swapRows s.m small s.row).bind fun m => .ok ⟨m, s.row, -s.factor⟩ :=
              if_pos hh
            rw [a, b, ho.swap, ← hφ.neg]
            exact bind_map fun m' _ => rfl
          · have a : p.pivot (mapS φ ψ s) small = .ok (mapS φ ψ s) := if_neg hh
            have b : o.pivot s small = .ok s := if_neg hh
            rw [a, b]
            rfl
        have hq : ∀ s1, o.pivot s small = .ok s1 → I s1.m ∧ s1.row = s.row ∧ o.get s1.m s1.row col = .ok v := by
          intro s1 e
          unfold MatOps.pivot at e
          split at e
          · obtain ⟨m', e2, e⟩ := bind_ok e
            cases e
            exact ⟨hs.swap _ _ _ _ hI hlt hrow e2, rfl, (hs.row _ _ _ _ _ hI hlt hrow hc e2).trans hv⟩
          · cases e
            rename_i hh
            have : small = s.row := by simpa using hh
            exact ⟨hI, rfl, this ▸ hv⟩
        simp only [mapS] at hp
        simp only []
        rw [hp]
        cases e3 : o.pivot s small with
        | panic => exact ⟨rfl, nofun⟩
        | hang => exact ⟨rfl, nofun⟩
        | ok s1 =>
          obtain ⟨hI1, hr1, hg⟩ := hq s1 e3
          simp only [mapR_ok, mapS, ho.get, hg]
          rw [elimBelow_map hφ ho _ _ _ _ _ _ hz]
          cases e4 : o.elimBelow col cols s1.row rows v s1.m with
          | panic => exact ⟨rfl, nofun⟩
          | hang => exact ⟨rfl, nofun⟩
          | ok m' =>
            refine ⟨rfl, fun s' e => ?_⟩
            cases e
            exact elimBelow_keeps hs hI1 e4

/-- The elimination commutes with the map. -/
theorem gaussElim_map (hφ : Hom φ) (ho : OpsMap o p φ ψ) (hs : Swaps o cols rows I) {m : M} (hI : I m) :
    p.gaussElim cols rows (ψ m) = mapR (fun r : M × α => (ψ r.1, φ r.2)) (o.gaussElim cols rows m) := by
  unfold MatOps.gaussElim
  have key := (forUpM_map (ψ := mapS φ ψ) (F := fun col s => o.gaussStep cols rows col s)
    (G := fun col s => p.gaussStep cols rows col s) (fun s => I s.m) cols (s := ⟨m, 0, 1⟩) hI
    fun i s hi hI => gaussStep_map hφ ho hs hi s hI).1
  simp only [mapS, hφ.one] at key
  simp only [key]
  exact bind_map fun s _ => rfl

end

end GaussMap

end Verif
