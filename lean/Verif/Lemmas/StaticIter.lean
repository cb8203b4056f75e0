import Verif.Spec.StaticIter

/-!
# Helper lemmas: static iterators
-/

namespace Verif

namespace StaticIter

variable {W α : Type}

/-- `it`, polled in order, gives what `act` says for the indices below `N`; `Inv k` holds of its state
after `k` polls. -/
structure Yields (N : Nat) (it : SIter W α) (act : Nat → W → Option (α × W))
    (Inv : Nat → it.St → Prop) : Prop where
  init : Inv 0 it.st
  step : ∀ k s w, k < N → Inv k s →
    ∃ a s' w', act k w = some (a, w') ∧ it.idx s k w = some (a, s', w') ∧ Inv (k + 1) s'

theorem intoIter_yields (l : List α) : Yields (W := W) l.length (intoIter l) (Pipe.array l).elem
    (fun k s => s = (l.mapIdx fun i a => if i < k then none else some a)) := by
  constructor
  · apply List.ext_getElem?
    intro i
    simp [intoIter, List.getElem?_mapIdx]
  · rintro k s w hk rfl
    have h1 : (l.mapIdx fun i a => if i < k then none else some a)[k]? = some (some l[k]) := by
      rw [List.getElem?_mapIdx, List.getElem?_eq_getElem hk]; simp
    refine ⟨l[k], (l.mapIdx fun i a => if i < k then none else some a).set k none, w, ?_, ?_, ?_⟩
    · unfold Pipe.elem
      rw [List.getElem?_eq_getElem hk]; rfl
    · simp only [intoIter]
      rw [h1]
    · apply List.ext_getElem?
      intro i
      rw [List.getElem?_set, List.getElem?_mapIdx, List.getElem?_mapIdx]
      by_cases hi : k = i
      · subst hi
        simp [hk]
      · rw [if_neg hi]
        by_cases h2 : i < k
        · simp [h2, Nat.lt_succ_of_lt h2]
        · have h3 : ¬ i < k + 1 := by omega
          simp [h2, h3]

theorem pipe_yields (N : Nat) (p : Pipe W α) (h : p.Sized N) :
    ∃ Inv, Yields N p.iter p.elem Inv := by
  induction p with
  | array l => subst h; exact ⟨_, intoIter_yields l⟩
  | ref l =>
    refine ⟨fun _ _ => True, trivial, fun k s w hk _ => ?_⟩
    have hk : k < l.length := by rw [show l.length = N from h]; exact hk
    refine ⟨l[k], (), w, ?_, ?_, trivial⟩
    · unfold Pipe.elem; rw [List.getElem?_eq_getElem hk]; rfl
    · simp only [Pipe.iter, refIter]; rw [List.getElem?_eq_getElem hk]; rfl
  | range => exact ⟨fun _ _ => True, trivial, fun k s w _ _ => ⟨k, (), w, rfl, rfl, trivial⟩⟩
  | custom g => exact ⟨fun _ _ => True, trivial, fun k s w _ _ => ⟨_, (), _, rfl, rfl, trivial⟩⟩
  | map p f ih =>
    obtain ⟨Inv, h0, h1⟩ := ih h
    refine ⟨Inv, h0, fun k s w hk hi => ?_⟩
    obtain ⟨a, s', w', e1, e2, e3⟩ := h1 k s w hk hi
    refine ⟨(f a w').1, s', (f a w').2, ?_, ?_, e3⟩
    · simp only [Pipe.elem]; rw [e1]; rfl
    · simp only [Pipe.iter, map]; rw [e2]; rfl
  | zip p q ihp ihq =>
    obtain ⟨I1, h0, h1⟩ := ihp h.1
    obtain ⟨I2, g0, g1⟩ := ihq h.2
    refine ⟨fun k s => I1 k s.1 ∧ I2 k s.2, ⟨h0, g0⟩, fun k s w hk hi => ?_⟩
    obtain ⟨a, s', w', e1, e2, e3⟩ := h1 k s.1 w hk hi.1
    obtain ⟨b, t', w2, f1, f2, f3⟩ := g1 k s.2 w' hk hi.2
    refine ⟨(a, b), (s', t'), w2, ?_, ?_, e3, f3⟩
    · simp only [Pipe.elem]; rw [e1, Option.bind_some]; rw [f1]; rfl
    · simp only [Pipe.iter, zip]; rw [e2, Option.bind_some]; rw [f2]; rfl
  | enumerate p ih =>
    obtain ⟨Inv, h0, h1⟩ := ih h
    refine ⟨Inv, h0, fun k s w hk hi => ?_⟩
    obtain ⟨a, s', w', e1, e2, e3⟩ := h1 k s w hk hi
    refine ⟨(k, a), s', w', ?_, ?_, e3⟩
    · simp only [Pipe.elem]; rw [e1]; rfl
    · simp only [Pipe.iter, enumerate]; rw [e2]; rfl
  | zipNil => exact ⟨fun _ _ => True, trivial, fun k s w _ _ => ⟨_, (), _, rfl, rfl, trivial⟩⟩
  | zipCons p q ihp ihq =>
    obtain ⟨I1, h0, h1⟩ := ihp h.1
    obtain ⟨I2, g0, g1⟩ := ihq h.2
    refine ⟨fun k s => I1 k s.1 ∧ I2 k s.2, ⟨h0, g0⟩, fun k s w hk hi => ?_⟩
    obtain ⟨a, s', w', e1, e2, e3⟩ := h1 k s.1 w hk hi.1
    obtain ⟨b, t', w2, f1, f2, f3⟩ := g1 k s.2 w' hk hi.2
    refine ⟨a :: b, (s', t'), w2, ?_, ?_, e3, f3⟩
    · simp only [Pipe.elem]; rw [e1, Option.bind_some]; rw [f1]; rfl
    · simp only [Pipe.iter, zipCons]; rw [e2, Option.bind_some]; rw [f2]; rfl

/-! ## Consumers -/

/-- The specification of a loop over the indices, without iterator state. -/
def runFold {β γ : Type} (act : Nat → W → Option (α × W))
    (f : γ → Nat → α → W → Option (Flow β γ × W)) :
    List Nat → γ → W → Option (Flow β γ × W)
  | [], acc, w => some (.cont acc, w)
  | i :: is, acc, w =>
    (act i w).bind fun r => (f acc i r.1 r.2).bind fun o =>
      match o.1 with
      | .cont acc => runFold act f is acc o.2
      | .brk b => some (.brk b, o.2)

theorem pollFold_spec {N : Nat} {it : SIter W α} {act : Nat → W → Option (α × W)}
    {Inv : Nat → it.St → Prop} (h : Yields N it act Inv) {β γ : Type}
    (f : γ → Nat → α → W → Option (Flow β γ × W)) (n k : Nat) (hk : k + n = N) (acc : γ)
    (s : it.St) (w : W) (hi : Inv k s) :
    (pollFold it f (List.range' k n) acc s w).map (fun r => (r.1, r.2.2)) =
      runFold act f (List.range' k n) acc w ∧
    ∀ r, pollFold it f (List.range' k n) acc s w = some r →
      (∃ c, r.1 = .cont c) → Inv N r.2.1 := by
  induction n generalizing k acc s w with
  | zero =>
    refine ⟨rfl, fun r hr _ => ?_⟩
    simp only [List.range'_zero, pollFold, Option.some.injEq] at hr
    subst hr
    rw [← hk]; exact hi
  | succ n ih =>
    obtain ⟨a, s', w', e1, e2, e3⟩ := h.step k s w (by omega) hi
    rw [List.range'_succ]
    unfold pollFold runFold
    rw [e1, e2, Option.bind_some, Option.bind_some]
    simp only
    cases hf : f acc k a w' with
    | none => exact ⟨rfl, fun r hr => by simp at hr⟩
    | some o =>
      rw [Option.bind_some, Option.bind_some]
      obtain ⟨o1, o2⟩ := o
      cases o1 with
      | cont c => exact ih (k + 1) (by omega) c s' o2 e3
      | brk b =>
        refine ⟨rfl, fun r hr hc => ?_⟩
        simp only [Option.some.injEq] at hr
        subst hr
        obtain ⟨c, hc⟩ := hc
        simp at hc

theorem pollFold_range {N : Nat} {it : SIter W α} {act : Nat → W → Option (α × W)}
    {Inv : Nat → it.St → Prop} (h : Yields N it act Inv) {β γ : Type}
    (f : γ → Nat → α → W → Option (Flow β γ × W)) (acc : γ) (w : W) :
    (pollFold it f (List.range N) acc it.st w).map (fun r => (r.1, r.2.2)) =
      runFold act f (List.range N) acc w := by
  rw [List.range_eq_range']
  exact (pollFold_spec h f N 0 (by omega) acc it.st w h.init).1

/-- `act` gives something at all indices below `N`. -/
def Total (N : Nat) (act : Nat → W → Option (α × W)) : Prop :=
  ∀ k w, k < N → ∃ r, act k w = some r

theorem Yields.total {N : Nat} {it : SIter W α} {act : Nat → W → Option (α × W)}
    {Inv : Nat → it.St → Prop} (h : Yields N it act Inv) (hs : ∀ k, k ≤ N → ∃ s, Inv k s) :
    Total N act := by
  intro k w hk
  obtain ⟨s, hi⟩ := hs k (by omega)
  obtain ⟨a, s', w', e1, _⟩ := h.step k s w hk hi
  exact ⟨_, e1⟩

theorem elem_total (N : Nat) (p : Pipe W α) (h : p.Sized N) : Total N p.elem := by
  induction p with
  | array l =>
    intro k w hk
    have hk : k < l.length := by rw [show l.length = N from h]; exact hk
    exact ⟨(l[k], w), by simp only [Pipe.elem]; rw [List.getElem?_eq_getElem hk]; rfl⟩
  | ref l =>
    intro k w hk
    have hk : k < l.length := by rw [show l.length = N from h]; exact hk
    exact ⟨(l[k], w), by simp only [Pipe.elem]; rw [List.getElem?_eq_getElem hk]; rfl⟩
  | range => exact fun k w _ => ⟨_, rfl⟩
  | custom g => exact fun k w _ => ⟨_, rfl⟩
  | map p f ih =>
    intro k w hk
    obtain ⟨r, e⟩ := ih h k w hk
    exact ⟨_, by simp only [Pipe.elem]; rw [e]; rfl⟩
  | zip p q ihp ihq =>
    intro k w hk
    obtain ⟨r, e⟩ := ihp h.1 k w hk
    obtain ⟨r', e'⟩ := ihq h.2 k r.2 hk
    exact ⟨_, by simp only [Pipe.elem]; rw [e, Option.bind_some, e']; rfl⟩
  | enumerate p ih =>
    intro k w hk
    obtain ⟨r, e⟩ := ih h k w hk
    exact ⟨_, by simp only [Pipe.elem]; rw [e]; rfl⟩
  | zipNil => exact fun k w _ => ⟨_, rfl⟩
  | zipCons p q ihp ihq =>
    intro k w hk
    obtain ⟨r, e⟩ := ihp h.1 k w hk
    obtain ⟨r', e'⟩ := ihq h.2 k r.2 hk
    exact ⟨_, by simp only [Pipe.elem]; rw [e, Option.bind_some, e']; rfl⟩

theorem runAll_total {N : Nat} {act : Nat → W → Option (α × W)} (h : Total N act) (is : List Nat)
    (hi : ∀ i ∈ is, i < N) (w : W) : ∃ l w', runAll act is w = some (l, w') ∧
      l.length = is.length := by
  induction is generalizing w with
  | nil => exact ⟨[], w, rfl, rfl⟩
  | cons i is ih =>
    obtain ⟨r, e⟩ := h i w (hi i (by simp))
    obtain ⟨l, w', e2, e3⟩ := ih (fun j hj => hi j (by simp [hj])) r.2
    refine ⟨r.1 :: l, w', ?_, by simp [e3]⟩
    unfold runAll
    rw [e, Option.bind_some, e2]; rfl

/-- A loop that only accumulates. -/
theorem runFold_append (act : Nat → W → Option (α × W)) (is : List Nat) (acc : List α) (w : W) :
    runFold (β := Empty) act (fun acc _ a w => some (.cont (acc ++ [a]), w)) is acc w =
      (runAll act is w).map fun r => (.cont (acc ++ r.1), r.2) := by
  induction is generalizing acc w with
  | nil => simp [runFold, runAll]
  | cons i is ih =>
    unfold runFold runAll
    cases act i w with
    | none => rfl
    | some r =>
      simp only [Option.bind_some]
      rw [ih]
      cases runAll act is r.2 with
      | none => rfl
      | some t => simp

theorem collectArray_spec {N : Nat} {p : Pipe W α} (h : p.Sized N) (w : W) :
    collectArray N p.iter w = runAll p.elem (List.range N) w := by
  obtain ⟨Inv, hy⟩ := pipe_yields N p h
  have h1 := pollFold_range (β := Empty) hy
    (fun (acc : List α) _ a w => some (.cont (acc ++ [a]), w)) [] w
  rw [runFold_append] at h1
  unfold collectArray collectArrayState
  cases hp : pollFold (β := Empty) p.iter (fun (acc : List α) _ a w => some (.cont (acc ++ [a]), w))
      (List.range N) [] p.iter.st w with
  | none =>
    rw [hp] at h1
    cases hr : runAll p.elem (List.range N) w with
    | none => rfl
    | some t => rw [hr] at h1; simp at h1
  | some r =>
    rw [hp] at h1
    cases hr : runAll p.elem (List.range N) w with
    | none => rw [hr] at h1; simp at h1
    | some t =>
      rw [hr] at h1
      simp only [Option.map_some, Option.some.injEq, Prod.mk.injEq, List.nil_append] at h1
      obtain ⟨r1, r2, r3⟩ := r
      obtain ⟨e1, e2⟩ := h1
      simp only at e1 e2
      subst e1 e2
      rfl

/-- A loop that folds, for a closure without effects. -/
theorem runFold_fold {γ : Type} (act : Nat → W → Option (α × W)) (f : γ → α → γ)
    (is : List Nat) (acc : γ) (w : W) :
    runFold (β := Empty) act (fun acc _ a w => some (.cont (f acc a), w)) is acc w =
      (runAll act is w).map fun r => (.cont (r.1.foldl f acc), r.2) := by
  induction is generalizing acc w with
  | nil => simp [runFold, runAll]
  | cons i is ih =>
    unfold runFold runAll
    cases act i w with
    | none => rfl
    | some r =>
      simp only [Option.bind_some]
      rw [ih]
      cases runAll act is r.2 with
      | none => rfl
      | some t => simp

theorem fold_spec {γ : Type} {N : Nat} {p : Pipe W α} (h : p.Sized N) (f : γ → α → γ) (acc : γ)
    (w : W) :
    fold N p.iter acc (fun acc a w => (f acc a, w)) w =
      (runAll p.elem (List.range N) w).map fun r => (r.1.foldl f acc, r.2) := by
  obtain ⟨Inv, hy⟩ := pipe_yields N p h
  have h1 := pollFold_range (β := Empty) hy
    (fun (acc : γ) _ a w => some (.cont (f acc a), w)) acc w
  rw [runFold_fold] at h1
  unfold fold
  cases hp : pollFold (β := Empty) p.iter (fun (acc : γ) _ a w => some (.cont (f acc a), w))
      (List.range N) acc p.iter.st w with
  | none =>
    rw [hp] at h1
    cases hr : runAll p.elem (List.range N) w with
    | none => rfl
    | some t => rw [hr] at h1; simp at h1
  | some r =>
    rw [hp] at h1
    cases hr : runAll p.elem (List.range N) w with
    | none => rw [hr] at h1; simp at h1
    | some t =>
      rw [hr] at h1
      simp only [Option.map_some, Option.some.injEq, Prod.mk.injEq] at h1
      obtain ⟨r1, r2, r3⟩ := r
      obtain ⟨e1, e2⟩ := h1
      simp only at e1 e2
      subst e1 e2
      rfl

theorem tryFold_spec {γ ε : Type} {N : Nat} {p : Pipe W α} (h : p.Sized N)
    (f : γ → α → W → Flow ε γ × W) (acc : γ) (w : W) :
    tryFold N p.iter acc f w =
      runFold p.elem (fun acc _ a w => some (f acc a w)) (List.range N) acc w := by
  obtain ⟨Inv, hy⟩ := pipe_yields N p h
  exact pollFold_range hy _ acc w

theorem any_spec {N : Nat} {p : Pipe W α} (h : p.Sized N) (f : α → W → Bool × W) (w : W) :
    any N p.iter f w = runAny p.elem f (List.range N) w := by
  unfold any
  rw [tryFold_spec h]
  generalize List.range N = is
  induction is generalizing w with
  | nil => rfl
  | cons i is ih =>
    unfold runFold runAny
    cases p.elem i w with
    | none => rfl
    | some r =>
      simp only [Option.bind_some]
      cases hf : (f r.1 r.2).1 with
      | true => rfl
      | false => exact ih _

theorem all_spec {N : Nat} {p : Pipe W α} (h : p.Sized N) (f : α → W → Bool × W) (w : W) :
    all N p.iter f w = (runAny p.elem (fun a w => (!(f a w).1, (f a w).2)) (List.range N) w).map
      fun r => (!r.1, r.2) := by
  unfold all
  rw [tryFold_spec h]
  generalize List.range N = is
  induction is generalizing w with
  | nil => rfl
  | cons i is ih =>
    unfold runFold runAny
    cases p.elem i w with
    | none => rfl
    | some r =>
      simp only [Option.bind_some]
      cases hf : (f r.1 r.2).1 with
      | false => rfl
      | true => exact ih _

/-! ## Collections -/

/-- `c` implements the shape `sh`: `R k xs u` says the buffer `u` holds the elements `xs` after `k`
writes. -/
structure Implements (N : Nat) {T X O : Type} (sh : Shape T X O) (c : Coll T O)
    (R : Nat → List X → c.Uninit → Prop) : Prop where
  init : R 0 [] c.uninit
  store : ∀ k xs u v x, k < N → R k xs u → sh.cls v = .inl x →
    ∃ u', c.write u k v = some (.cont u') ∧ R (k + 1) (xs ++ [x]) u'
  stop : ∀ k xs u v o, k < N → R k xs u → sh.cls v = .inr o →
    ∃ b, c.write u k v = some (.brk b) ∧ c.finish (.brk b) = some o
  done : ∀ xs u, R N xs u → c.finish (.cont u) = some (sh.done xs)

theorem assumeInit_map (l : List α) : assumeInit (l.map some) = some l := by
  induction l with
  | nil => rfl
  | cons a l ih => simp [assumeInit, ih]

theorem shape_implements (N : Nat) {T X O : Type} (sh : Shape T X O) :
    ∃ R, Implements N sh (sh.coll N) R ∧ ∀ k xs u, R k xs u →
      xs.length = k ∧ sh.buf N u = xs.map some ++ List.replicate (N - k) none := by
  induction sh with
  | array T =>
    refine ⟨fun k xs u => xs.length = k ∧ k ≤ N ∧ u = xs.map some ++ List.replicate (N - k) none,
      ⟨⟨rfl, Nat.zero_le _, by simp [Shape.coll, arrayColl]⟩, ?_, ?_, ?_⟩,
      fun k xs u h => ⟨h.1, h.2.2⟩⟩
    · rintro k xs u v x hk ⟨h1, h2, rfl⟩ hc
      simp only [Shape.cls, Sum.inl.injEq] at hc
      subst hc
      refine ⟨(xs ++ [v]).map some ++ List.replicate (N - (k + 1)) none, ?_, by simp [h1], hk, rfl⟩
      simp only [Shape.coll, arrayColl]
      rw [if_pos (by simp [h1]; omega)]
      congr 2
      have h3 : N - k = (N - (k + 1)) + 1 := by omega
      rw [h3, List.replicate_succ, List.set_append_right _ _ (by simp [h1])]
      simp [h1]
    · rintro k xs u v o hk h hc
      simp [Shape.cls] at hc
    · rintro xs u ⟨h1, h2, rfl⟩
      simp only [Shape.coll, arrayColl, Shape.done]
      rw [Nat.sub_self, List.replicate_zero, List.append_nil]
      exact assumeInit_map xs
  | option s ih =>
    obtain ⟨R, ⟨hi, hs, hb, hd⟩, hbuf⟩ := ih
    refine ⟨R, ⟨hi, ?_, ?_, ?_⟩, hbuf⟩
    · intro k xs u v x hk hR hc
      cases v with
      | none => simp [Shape.cls] at hc
      | some v =>
        cases hcv : s.cls v with
        | inr o => simp [Shape.cls, hcv] at hc
        | inl x' =>
          simp only [Shape.cls, hcv, Sum.inl.injEq] at hc
          subst hc
          obtain ⟨u', e1, e2⟩ := hs k xs u v x' hk hR hcv
          exact ⟨u', by simp only [Shape.coll, optionColl]; rw [e1]; rfl, e2⟩
    · intro k xs u v o hk hR hc
      cases v with
      | none =>
        simp only [Shape.cls, Sum.inr.injEq] at hc
        subst hc
        exact ⟨none, rfl, rfl⟩
      | some v =>
        cases hcv : s.cls v with
        | inl x => simp [Shape.cls, hcv] at hc
        | inr o' =>
          simp only [Shape.cls, hcv, Sum.inr.injEq] at hc
          subst hc
          obtain ⟨b, e1, e2⟩ := hb k xs u v o' hk hR hcv
          refine ⟨some b, ?_, ?_⟩
          · simp only [Shape.coll, optionColl]; rw [e1]; rfl
          · simp only [Shape.coll, optionColl]; rw [e2]; rfl
    · intro xs u hR
      simp only [Shape.coll, optionColl]
      rw [hd xs u hR]; rfl
  | result E s ih =>
    obtain ⟨R, ⟨hi, hs, hb, hd⟩, hbuf⟩ := ih
    refine ⟨R, ⟨hi, ?_, ?_, ?_⟩, hbuf⟩
    · intro k xs u v x hk hR hc
      cases v with
      | error e => simp [Shape.cls] at hc
      | ok v =>
        cases hcv : s.cls v with
        | inr o => simp [Shape.cls, hcv] at hc
        | inl x' =>
          simp only [Shape.cls, hcv, Sum.inl.injEq] at hc
          subst hc
          obtain ⟨u', e1, e2⟩ := hs k xs u v x' hk hR hcv
          exact ⟨u', by simp only [Shape.coll, resultColl]; rw [e1]; rfl, e2⟩
    · intro k xs u v o hk hR hc
      cases v with
      | error e =>
        simp only [Shape.cls, Sum.inr.injEq] at hc
        subst hc
        exact ⟨.error e, rfl, rfl⟩
      | ok v =>
        cases hcv : s.cls v with
        | inl x => simp [Shape.cls, hcv] at hc
        | inr o' =>
          simp only [Shape.cls, hcv, Sum.inr.injEq] at hc
          subst hc
          obtain ⟨b, e1, e2⟩ := hb k xs u v o' hk hR hcv
          refine ⟨.ok b, ?_, ?_⟩
          · simp only [Shape.coll, resultColl]; rw [e1]; rfl
          · simp only [Shape.coll, resultColl]; rw [e2]; rfl
    · intro xs u hR
      simp only [Shape.coll, resultColl]
      rw [hd xs u hR]; rfl

theorem runFold_gather {N : Nat} {T X O : Type} {sh : Shape T X O} {c : Coll T O}
    {R : Nat → List X → c.Uninit → Prop} (hR : Implements N sh c R)
    {act : Nat → W → Option (T × W)} (ht : Total N act)
    (n k : Nat) (hk : k + n = N) (xs : List X) (u : c.Uninit) (hu : R k xs u) (w : W) :
    ((runFold act (fun acc i a w => (c.write acc i a).map fun o => (o, w)) (List.range' k n) u
      w).bind fun r => (c.finish r.1).map fun o => (o, r.2)) =
    sh.gather act (List.range' k n) xs w ∧
    (sh.gather act (List.range' k n) xs w).isSome = true := by
  induction n generalizing k xs u w with
  | zero =>
    simp only [List.range'_zero, runFold, Shape.gather, Option.bind_some]
    rw [Nat.add_zero] at hk
    subst hk
    rw [hR.done xs u hu]
    exact ⟨rfl, rfl⟩
  | succ n ih =>
    rw [List.range'_succ]
    unfold runFold Shape.gather
    obtain ⟨r, e⟩ := ht k w (by omega)
    rw [e]
    simp only [Option.bind_some]
    cases hc : sh.cls r.1 with
    | inl x =>
      obtain ⟨u', e1, e2⟩ := hR.store k xs u r.1 x (by omega) hu hc
      rw [e1]
      simp only [Option.map_some, Option.bind_some]
      exact ih (k + 1) (by omega) _ u' e2 r.2
    | inr o =>
      obtain ⟨b, e1, e2⟩ := hR.stop k xs u r.1 o (by omega) hu hc
      rw [e1]
      simp only [Option.map_some, Option.bind_some]
      rw [e2]
      exact ⟨rfl, rfl⟩

theorem collect_spec {N : Nat} {T X O : Type} (sh : Shape T X O) (p : Pipe W T) (h : p.Sized N)
    (w : W) :
    collect N p.iter (sh.coll N) w = sh.gather p.elem (List.range N) [] w ∧
    (sh.gather p.elem (List.range N) [] w).isSome = true := by
  obtain ⟨Inv, hy⟩ := pipe_yields N p h
  obtain ⟨R, hR, _⟩ := shape_implements N sh
  have h1 := pollFold_range hy
    (fun acc i a w => ((sh.coll N).write acc i a).map fun o => (o, w)) (sh.coll N).uninit w
  have h2 := runFold_gather hR (elem_total N p h) N 0 (by omega) [] _ hR.init w
  rw [← List.range_eq_range', ← h1] at h2
  refine ⟨?_, h2.2⟩
  rw [← h2.1]
  unfold collect collectState
  cases pollFold p.iter (fun acc i a w => ((sh.coll N).write acc i a).map fun o => (o, w))
      (List.range N) (sh.coll N).uninit p.iter.st w with
  | none => rfl
  | some r =>
    simp only [Option.bind_some, Option.map_some]
    cases (sh.coll N).finish r.1 <;> rfl

end StaticIter

end Verif
