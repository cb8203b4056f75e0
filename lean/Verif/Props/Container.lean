import Verif.Model.Container

/-!
# C173: undefined behaviour in the slice algorithms, for any container
-/

namespace Verif

namespace Container

variable {w : Nat} {σ τ : Type}

/-! ## Specification -/

/-- A container that keeps its size: there is a number of limbs it has, which no method lowers,
`slice` shows no more limbs than that, and `get_opt` gives each of them. What the values are, and
whether methods panic, is left open. -/
structure Steady (c : Methods w σ) (size : σ → Nat) : Prop where
  sliceLen : ∀ s n s', c.sliceLen s = .ok (n, s') → n ≤ size s ∧ size s ≤ size s'
  bitLen : ∀ s n s', c.bitLen s = .ok (n, s') → size s ≤ size s'
  getOpt : ∀ s i v s', c.getOpt s i = .ok (v, s') →
    (i < size s → v.isSome = true) ∧ size s ≤ size s'
  setIgnore : ∀ s i v s', c.setIgnore s i v = .ok s' → size s ≤ size s'

/-- A container that is a place for limbs: what is written into the limbs shown is what is shown
afterwards, and nothing else changes. -/
structure Place (view : σ → List (BitVec w)) (put : σ → List (BitVec w) → σ) : Prop where
  view_put : ∀ s l, l.length = (view s).length → view (put s l) = l
  put_put : ∀ s l l', l.length = (view s).length → l'.length = (view s).length →
    put (put s l) l' = put s l'
  put_view : ∀ s, put s (view s) = s

/-- What a call on the limbs makes of the container. -/
def inPlace (put : List (BitVec w) → σ) : Res (List (BitVec w)) → Out σ
  | .ok l => .ok (put l)
  | .panic => .panic
  | .hang => .panic

/-- A container whose `slice` always shows `n` limbs, whose methods never panic, and whose
`get_opt` answers `None` on the same indices at all times: those outside `D`. -/
structure Fixed (c : Methods w σ) (n : Nat) (D : Nat → Prop) : Prop where
  sliceLen : ∀ s, ∃ s', c.sliceLen s = .ok (n, s')
  getOpt : ∀ s i, ∃ v s', c.getOpt s i = .ok (v, s') ∧ (v.isSome = true ↔ D i)
  setIgnore : ∀ s i v, ∃ s', c.setIgnore s i v = .ok s'

/-! ## Lemmas -/

namespace Out

theorem bind_ne_ub {α β : Type _} {x : Out α} {f : α → Out β} (hx : x ≠ ub)
    (hf : ∀ a, x = ok a → f a ≠ ub) : x.bind f ≠ ub := by
  cases x with
  | ok a => exact hf a rfl
  | panic => simp [bind]
  | ub => exact absurd rfl hx

theorem ofRes_ne_ub {α : Type _} (x : Res α) : ofRes x ≠ ub := by cases x <;> simp [ofRes]

theorem ofRes_ok {α : Type _} {x : Res α} {a : α} (h : ofRes x = ok a) : x = .ok a := by
  cases x <;> simp_all [ofRes]

theorem bind_ok {α β : Type _} {x : Out α} {f : α → Out β} {b : β} (h : x.bind f = ok b) :
    ∃ a, x = ok a ∧ f a = ok b := by
  cases x with
  | ok a => exact ⟨a, rfl, h⟩
  | panic => simp [bind] at h
  | ub => simp [bind] at h

end Out

theorem forDownO_ne_ub {f : Nat → σ → Out σ} {n : Nat} (P : Nat → σ → Prop)
    (hf : ∀ i s, i < n → P (i + 1) s → f i s ≠ .ub)
    (hP : ∀ i s s', i < n → P (i + 1) s → f i s = .ok s' → P i s') :
    ∀ k, k ≤ n → ∀ s, P k s → forDownO k f s ≠ .ub
  | 0, _, _, _ => by simp [forDownO]
  | k + 1, hk, s, h => by
    refine Out.bind_ne_ub (hf k s hk h) fun a ha => ?_
    exact forDownO_ne_ub P hf hP k (by omega) a (hP k s a hk h ha)

theorem forUpO_ne_ub {f : Nat → σ → Out σ} {n : Nat} (P : σ → Prop)
    (hf : ∀ i s, i < n → P s → f i s ≠ .ub)
    (hP : ∀ i s s', i < n → P s → f i s = .ok s' → P s') (s : σ) (h : P s) :
    ∀ k, k ≤ n → forUpO k f s ≠ .ub ∧ ∀ s', forUpO k f s = .ok s' → P s'
  | 0, _ => by
    refine ⟨by simp [forUpO], fun s' e => ?_⟩
    injection e with e; exact e ▸ h
  | k + 1, hk => by
    obtain ⟨h1, h2⟩ := forUpO_ne_ub P hf hP s h k (by omega)
    refine ⟨Out.bind_ne_ub h1 fun a ha => hf k a hk (h2 a ha), fun s' e => ?_⟩
    obtain ⟨a, ha, e⟩ := Out.bind_ok e
    exact hP k a s' hk (h2 a ha) e

section Safe

variable {c : Methods w σ} {size : σ → Nat}

private theorem shlBody_safe (h : Steady c size) (a e idx N : Nat) (s : σ) (hs : N ≤ size s)
    (hi : idx < N) : shlBody c a e idx s ≠ .ub ∧ ∀ s', shlBody c a e idx s = .ok s' → N ≤ size s' := by
  have key : ∀ (v : Option (BitVec w)) (s1 : σ), c.getOpt s idx = .ok (v, s1) →
      v.isSome = true ∧ N ≤ size s1 := fun v s1 e1 =>
    ⟨(h.getOpt _ _ _ _ e1).1 (by omega), le_trans' hs (h.getOpt _ _ _ _ e1).2⟩
  constructor
  · refine Out.bind_ne_ub (Out.ofRes_ne_ub _) fun p hp => ?_
    obtain ⟨v, s1⟩ := p
    obtain ⟨k1, _⟩ := key v s1 (Out.ofRes_ok hp)
    obtain ⟨x, rfl⟩ := Option.isSome_iff_exists.1 k1
    refine Out.bind_ne_ub (by simp [Out.unwrapUnchecked]) fun val _ => ?_
    refine Out.bind_ne_ub (Out.ofRes_ne_ub _) fun p _ => ?_
    exact Out.bind_ne_ub (Out.ofRes_ne_ub _) fun s2 _ => Out.ofRes_ne_ub _
  · intro s' e
    obtain ⟨⟨v, s1⟩, e1, e⟩ := Out.bind_ok e
    obtain ⟨val, -, e⟩ := Out.bind_ok e
    obtain ⟨⟨v2, s2⟩, e2, e⟩ := Out.bind_ok e
    obtain ⟨s3, e3, e⟩ := Out.bind_ok e
    have h1 := (key v s1 (Out.ofRes_ok e1)).2
    have h2 := (h.getOpt _ _ _ _ (Out.ofRes_ok e2)).2
    have h3 := h.setIgnore _ _ _ _ (Out.ofRes_ok e3)
    have h4 := h.setIgnore _ _ _ _ (Out.ofRes_ok e)
    omega
where
  le_trans' {a b c : Nat} (h : a ≤ b) (h' : b ≤ c) : a ≤ c := Nat.le_trans h h'

private theorem shrBody_safe (h : Steady c size) (a e idx N : Nat) (s : σ) (hs : N ≤ size s)
    (hi : idx < N) : shrBody c a e idx s ≠ .ub ∧ ∀ s', shrBody c a e idx s = .ok s' → N ≤ size s' := by
  have key : ∀ (v : Option (BitVec w)) (s1 : σ), c.getOpt s idx = .ok (v, s1) →
      v.isSome = true ∧ N ≤ size s1 := fun v s1 e1 =>
    ⟨(h.getOpt _ _ _ _ e1).1 (by omega), Nat.le_trans hs (h.getOpt _ _ _ _ e1).2⟩
  constructor
  · refine Out.bind_ne_ub (Out.ofRes_ne_ub _) fun p hp => ?_
    obtain ⟨v, s1⟩ := p
    obtain ⟨k1, _⟩ := key v s1 (Out.ofRes_ok hp)
    obtain ⟨x, rfl⟩ := Option.isSome_iff_exists.1 k1
    refine Out.bind_ne_ub (by simp [Out.unwrapUnchecked]) fun val _ => ?_
    refine Out.bind_ne_ub ?_ fun s2 _ => ?_
    · split
      · exact Out.bind_ne_ub (Out.ofRes_ne_ub _) fun p _ => Out.ofRes_ne_ub _
      · simp
    · split
      · exact Out.bind_ne_ub (Out.ofRes_ne_ub _) fun p _ => Out.ofRes_ne_ub _
      · simp
  · intro s' e
    obtain ⟨⟨v, s1⟩, e1, e⟩ := Out.bind_ok e
    obtain ⟨val, -, e⟩ := Out.bind_ok e
    obtain ⟨s2, e2, e⟩ := Out.bind_ok e
    have h1 := (key v s1 (Out.ofRes_ok e1)).2
    have h2 : N ≤ size s2 := by
      split at e2
      · obtain ⟨⟨v2, s3⟩, e3, e4⟩ := Out.bind_ok e2
        have h3 := (h.getOpt _ _ _ _ (Out.ofRes_ok e3)).2
        have h4 := h.setIgnore _ _ _ _ (Out.ofRes_ok e4)
        omega
      · injection e2 with e2; exact e2 ▸ h1
    split at e
    · obtain ⟨⟨v2, s3⟩, e3, e4⟩ := Out.bind_ok e
      have h3 := (h.getOpt _ _ _ _ (Out.ofRes_ok e3)).2
      have h4 := h.setIgnore _ _ _ _ (Out.ofRes_ok e4)
      omega
    · injection e with e; exact e ▸ h2

private theorem innerShl_safe (h : Steady c size) (s : σ) (k : Nat) : innerShl c s k ≠ .ub := by
  refine Out.bind_ne_ub (Out.ofRes_ne_ub _) fun p hp => ?_
  obtain ⟨n, s1⟩ := p
  obtain ⟨h1, h2⟩ := h.sliceLen _ _ _ (Out.ofRes_ok hp)
  refine Out.bind_ne_ub ?_ fun s2 _ => ?_
  · exact forDownO_ne_ub (n := n) (fun _ s => n ≤ size s)
      (fun i s hi hP => (shlBody_safe h _ _ i n s hP hi).1)
      (fun i s s' hi hP e => (shlBody_safe h _ _ i n s hP hi).2 s' e) n (Nat.le_refl n) s1
      (Nat.le_trans h1 h2)
  · refine Out.bind_ne_ub (Out.ofRes_ne_ub _) fun q _ => ?_
    dsimp only
    split <;> simp

private theorem innerShr_safe (h : Steady c size) (m : Mode) (s : σ) (k : Nat) :
    innerShr c m s k ≠ .ub := by
  refine Out.bind_ne_ub (Out.ofRes_ne_ub _) fun p hp => ?_
  obtain ⟨n, s1⟩ := p
  obtain ⟨h1, h2⟩ := h.sliceLen _ _ _ (Out.ofRes_ok hp)
  refine Out.bind_ne_ub ?_ fun s2 _ => ?_
  · exact (forUpO_ne_ub (n := n) (fun s => n ≤ size s)
      (fun i s hi hP => (shrBody_safe h _ _ i n s hP hi).1)
      (fun i s s' hi hP e => (shrBody_safe h _ _ i n s hP hi).2 s' e) s1
      (Nat.le_trans h1 h2) n (Nat.le_refl n)).1
  · refine Out.bind_ne_ub (Out.ofRes_ne_ub _) fun q _ => ?_
    refine Out.bind_ne_ub (Out.ofRes_ne_ub _) fun e _ => ?_
    refine Out.bind_ne_ub (Out.ofRes_ne_ub _) fun q _ => ?_
    dsimp only
    split <;> simp

end Safe

/-! ## Containers that keep their size -/

/-- **C173, part**: with a container that keeps its size, no in-place shift reaches undefined
behaviour, whatever the shift amount, the values the methods give and the panics they raise. -/
theorem C173_shifts_partial {c : Methods w σ} {size : σ → Nat} (h : Steady c size) (m : Mode)
    (s : σ) (k : Nat) :
    innerShl c s k ≠ .ub ∧ shlChecked c s k ≠ .ub ∧ shlWrapping c m s k ≠ .ub ∧
    innerShr c m s k ≠ .ub ∧ shrChecked c m s k ≠ .ub ∧ shrWrapping c m s k ≠ .ub := by
  refine ⟨innerShl_safe h s k, ?_, ?_, innerShr_safe h m s k, ?_, ?_⟩
  · refine Out.bind_ne_ub (Out.ofRes_ne_ub _) fun p _ => ?_
    dsimp only
    split
    · simp
    · exact Out.bind_ne_ub (innerShl_safe h _ _) fun a _ => by simp
  · refine Out.bind_ne_ub (Out.ofRes_ne_ub _) fun p _ => ?_
    exact Out.bind_ne_ub (Out.ofRes_ne_ub _) fun k _ => innerShl_safe h _ _
  · refine Out.bind_ne_ub (Out.ofRes_ne_ub _) fun p _ => ?_
    dsimp only
    split
    · simp
    · exact Out.bind_ne_ub (innerShr_safe h _ _ _) fun a _ => by simp
  · refine Out.bind_ne_ub (Out.ofRes_ne_ub _) fun p _ => ?_
    exact Out.bind_ne_ub (Out.ofRes_ne_ub _) fun k _ => innerShr_safe h _ _ _

/-- A growable list whose `slice` shows all limbs, which grows by a limb whenever a limb outside it
is written. -/
private def growing : Methods 8 (List (BitVec 8)) :=
  { plain 8 with setIgnore := fun s i v => .ok (if i < s.length then s.set i v else s ++ [v]) }

private theorem growing_steady : Steady growing List.length where
  sliceLen := by rintro s n s' e; cases e; exact ⟨Nat.le_refl _, Nat.le_refl _⟩
  bitLen := by rintro s n s' e; cases e; exact Nat.le_refl _
  getOpt := by
    rintro s i v s' e; cases e
    exact ⟨fun h => by simp [BitSlice.getOpt, h], Nat.le_refl _⟩
  setIgnore := by
    rintro s i v s' e
    injection e with e
    subst e
    split <;> simp

/-- C173 for a container that is no plain list: one that grows when it is shifted left. -/
example : innerShl growing [0x81#8] 1 = .ok [0x02#8, 0x01#8] ∧ innerShl growing [0x81#8] 1 ≠ .ub :=
  ⟨by decide, (C173_shifts_partial growing_steady .debug _ _).1⟩

/-! ## Bitwise addition -/

/-- **C173, bitwise addition**: it reaches no undefined behaviour with any two containers at all,
lawful or not. -/
theorem C173_bitwise_add (c : Methods w σ) (d : Methods w τ) (s : σ) (t : τ) :
    bitwiseAdd c d s t ≠ .ub ∧ bitwiseAddInPlace c d s t ≠ .ub := by
  have hb : ∀ l r k, addBit l r k ≠ .ub := by decide
  constructor
  · refine Out.bind_ne_ub (Out.ofRes_ne_ub _) fun p _ => ?_
    refine Out.bind_ne_ub (Out.ofRes_ne_ub _) fun p _ => ?_
    refine Out.bind_ne_ub (Out.ofRes_ne_ub _) fun p _ => ?_
    refine Out.bind_ne_ub (Out.ofRes_ne_ub _) fun p _ => ?_
    refine Out.bind_ne_ub ?_ fun st _ => by simp
    refine (forUpO_ne_ub (fun _ => True) (fun i st _ _ => ?_) (fun _ _ _ _ _ _ => trivial) _
      trivial _ (Nat.le_refl _)).1
    refine Out.bind_ne_ub (Out.ofRes_ne_ub _) fun p _ => ?_
    refine Out.bind_ne_ub (Out.ofRes_ne_ub _) fun p _ => ?_
    exact Out.bind_ne_ub (hb _ _ _) fun p _ => by simp
  · refine Out.bind_ne_ub (Out.ofRes_ne_ub _) fun p _ => ?_
    refine Out.bind_ne_ub (Out.ofRes_ne_ub _) fun p _ => ?_
    refine Out.bind_ne_ub ?_ fun st _ => by simp
    refine (forUpO_ne_ub (fun _ => True) (fun i st _ _ => ?_) (fun _ _ _ _ _ _ => trivial) _
      trivial _ (Nat.le_refl _)).1
    refine Out.bind_ne_ub (Out.ofRes_ne_ub _) fun p _ => ?_
    refine Out.bind_ne_ub (Out.ofRes_ne_ub _) fun p _ => ?_
    refine Out.bind_ne_ub (hb _ _ _) fun p _ => ?_
    exact Out.bind_ne_ub (Out.ofRes_ne_ub _) fun p _ => by simp

/-- C173 for bitwise addition: all three bits one. -/
example : bitwiseAdd (plain 8) (plain 8) [0xFF#8] [0x03#8] = .ok [0x02#8, 0x01#8] := by
  decide +kernel

/-! ## Containers that are a place for limbs -/

section Lens

variable {view : σ → List (BitVec w)} {put : σ → List (BitVec w) → σ}

private theorem setIgnore_length (l : List (BitVec w)) (i : Nat) (v : BitVec w) :
    (BitSlice.setIgnore l i v).length = l.length := by
  unfold BitSlice.setIgnore BitSlice.setOpt; split <;> simp

private theorem getOpt_put (h : Place view put) (s : σ) (l : List (BitVec w))
    (hl : l.length = (view s).length) (i : Nat) :
    (defaults view put).getOpt (put s l) i = .ok (BitSlice.getOpt l i, put s l) := by
  simp [defaults, h.view_put s l hl]

private theorem setIgnore_put (h : Place view put) (s : σ) (l : List (BitVec w))
    (hl : l.length = (view s).length) (i : Nat) (v : BitVec w) :
    (defaults view put).setIgnore (put s l) i v = .ok (put s (BitSlice.setIgnore l i v)) := by
  simp only [defaults, h.view_put s l hl]
  unfold BitSlice.setIgnore BitSlice.setOpt
  by_cases hi : i < l.length
  · simp [hi, h.put_put s l (l.set i v) hl (by simp [hl])]
  · simp [hi]

private theorem getOpt_some (l : List (BitVec w)) (i : Nat) (hi : i < l.length) :
    BitSlice.getOpt l i = some (l.getD i 0) := by simp [BitSlice.getOpt, hi]

private theorem shlBody_put (h : Place view put) (s : σ) (l : List (BitVec w))
    (hl : l.length = (view s).length) (a e idx : Nat) (hi : idx < l.length) :
    shlBody (defaults view put) a e idx (put s l) =
      .ok (put s (ElementShl.body a e idx (l.getD idx 0) l)) := by
  unfold shlBody ElementShl.body
  simp only [getOpt_put h s l hl, Out.ofRes, Out.bind, getOpt_some l idx hi, Out.unwrapUnchecked,
    setIgnore_put h s l hl]
  rw [setIgnore_put h s _ (by rw [setIgnore_length, hl])]
  rfl

private theorem shlBody_length (a e idx : Nat) (v : BitVec w) (l : List (BitVec w)) :
    (ElementShl.body a e idx v l).length = l.length := by
  unfold ElementShl.body; simp only [setIgnore_length]

private theorem shrBody_put (h : Place view put) (s : σ) (l : List (BitVec w))
    (hl : l.length = (view s).length) (a e idx : Nat) (hi : idx < l.length) :
    shrBody (defaults view put) a e idx (put s l) =
      .ok (put s (ElementShr.innerBody a e idx l)) := by
  unfold shrBody ElementShr.innerBody
  simp only [getOpt_put h s l hl, Out.ofRes, Out.bind, getOpt_some l idx hi, Out.unwrapUnchecked,
    setIgnore_put h s l hl]
  by_cases h1 : a ≤ idx
  · have h2 : a ≤ idx + 1 := by omega
    simp only [h1, h2, if_true]
    rw [getOpt_put h s _ (by rw [setIgnore_length, hl])]
    dsimp only
    rw [setIgnore_put h s _ (by rw [setIgnore_length, hl])]
    rfl
  · by_cases h2 : a ≤ idx + 1
    · simp only [h1, h2, if_true, if_false]
      rw [getOpt_put h s _ hl]
      dsimp only
      rw [setIgnore_put h s _ hl]
      rfl
    · simp only [h1, h2, if_false]

private theorem shrBody_length (a e idx : Nat) (l : List (BitVec w)) :
    (ElementShr.innerBody a e idx l).length = l.length := by
  unfold ElementShr.innerBody
  dsimp only
  split <;> split <;> simp only [setIgnore_length]

private theorem forDown_put (s : σ) (N : Nat) (f : Nat → σ → Out σ)
    (g : Nat → List (BitVec w) → List (BitVec w))
    (hf : ∀ i l, i < N → l.length = N → f i (put s l) = .ok (put s (g i l)))
    (hg : ∀ i l, (g i l).length = l.length) :
    ∀ k, k ≤ N → ∀ l, l.length = N → forDownO k f (put s l) = .ok (put s (forDown k g l))
  | 0, _, _, _ => rfl
  | k + 1, hk, l, hl => by
    show (f k (put s l)).bind _ = _
    rw [hf k l hk hl]
    exact forDown_put s N f g hf hg k (by omega) _ (by rw [hg, hl])

private theorem forUp_put (s : σ) (N : Nat) (f : Nat → σ → Out σ)
    (g : Nat → List (BitVec w) → List (BitVec w))
    (hf : ∀ i l, i < N → l.length = N → f i (put s l) = .ok (put s (g i l)))
    (hg : ∀ i l, (g i l).length = l.length) (l : List (BitVec w)) (hl : l.length = N) :
    ∀ k, k ≤ N → forUpO k f (put s l) = .ok (put s (forUp k g l)) ∧ (forUp k g l).length = N
  | 0, _ => ⟨rfl, hl⟩
  | k + 1, hk => by
    obtain ⟨h1, h2⟩ := forUp_put s N f g hf hg l hl k (by omega)
    refine ⟨?_, ?_⟩
    · show (forUpO k f (put s l)).bind _ = _
      rw [h1]
      exact hf k _ hk h2
    · show (g k (forUp k g l)).length = N
      rw [hg, h2]

private theorem forDown_length (g : Nat → List (BitVec w) → List (BitVec w))
    (hg : ∀ i l, (g i l).length = l.length) : ∀ k l, (forDown k g l).length = l.length
  | 0, _ => rfl
  | k + 1, l => by
    show (forDown k g (g k l)).length = _
    rw [forDown_length g hg k, hg]

private theorem innerShl_put (h : Place view put) (s : σ) (k : Nat) :
    innerShl (defaults view put) s k = inPlace (put s) (ElementShl.inner (view s) k) := by
  have e := forDown_put (put := put) s (view s).length
    (shlBody (defaults view put) (k / w + 1) (k % w))
    (fun idx l => ElementShl.body (k / w + 1) (k % w) idx (l.getD idx 0) l)
    (fun i l hi hl => shlBody_put h s l hl _ _ i (by omega)) (fun i l => shlBody_length _ _ _ _ _)
    (view s).length (Nat.le_refl _) (view s) rfl
  rw [h.put_view] at e
  have hl := forDown_length (fun idx l => ElementShl.body (k / w + 1) (k % w) idx (l.getD idx 0) l)
    (fun i l => shlBody_length _ _ _ _ _) (view s).length (view s)
  unfold innerShl ElementShl.inner
  simp only [show (defaults view put).sliceLen s = .ok ((view s).length, s) from rfl, Out.ofRes,
    Out.bind]
  rw [e]
  simp only [show ∀ s, (defaults view put).sliceMut s = .ok (view s, put s) from fun _ => rfl]
  rw [h.view_put s _ hl]
  split
  · rename_i hk
    simp only [inPlace]
    have hl' : (List.replicate (k / w + 1 - 1) 0 ++ (forDown (view s).length
        (fun idx l => ElementShl.body (k / w + 1) (k % w) idx (l.getD idx 0) l)
        (view s)).drop (k / w + 1 - 1)).length = (view s).length := by
      rw [List.length_append, List.length_replicate, List.length_drop]
      omega
    rw [h.put_put s _ _ hl hl']
  · rfl

private theorem innerShr_put (h : Place view put) (m : Mode) (s : σ) (k : Nat) :
    innerShr (defaults view put) m s k = inPlace (put s) (ElementShr.inner m (view s) k) := by
  obtain ⟨e, hl⟩ := forUp_put (put := put) s (view s).length
    (shrBody (defaults view put) (k / w + 1) (k % w))
    (ElementShr.innerBody (k / w + 1) (k % w))
    (fun i l hi hl => shrBody_put h s l hl _ _ i (by omega)) (fun i l => shrBody_length _ _ _ _)
    (view s) rfl (view s).length (Nat.le_refl _)
  rw [h.put_view] at e
  unfold innerShr ElementShr.inner
  simp only [show (defaults view put).sliceLen s = .ok ((view s).length, s) from rfl, Out.ofRes,
    Out.bind]
  rw [e]
  simp only [show ∀ s, (defaults view put).sliceMut s = .ok (view s, put s) from fun _ => rfl,
    show ∀ s, (defaults view put).len s = .ok ((view s).length, s) from fun _ => rfl]
  rw [h.view_put s _ hl]
  cases hu : usub m (forUp (view s).length (ElementShr.innerBody (k / w + 1) (k % w))
      (view s)).length (k / w + 1) with
  | ok e =>
    simp only [Res.bind]
    split
    · rename_i hk
      simp only [inPlace]
      refine congrArg Out.ok (h.put_put s _ _ hl ?_)
      rw [List.length_append, List.length_replicate, List.length_take]
      omega
    · rfl
  | panic => rfl
  | hang => rfl

/-- **C173, part**: a container that implements only `slice` and `slice_mut`, and is a place for
limbs, behaves in the in-place shifts exactly as its list of limbs does; the results on lists are
those of C09 and C11. In particular there is no undefined behaviour. -/
theorem C173_place_partial (h : Place view put) (m : Mode) (s : σ) (k : Nat) :
    innerShl (defaults view put) s k = inPlace (put s) (ElementShl.inner (view s) k) ∧
    shlWrapping (defaults view put) m s k =
      inPlace (put s) (ElementShl.shlWrapping m (view s) k) ∧
    innerShr (defaults view put) m s k = inPlace (put s) (ElementShr.inner m (view s) k) ∧
    shrWrapping (defaults view put) m s k =
      inPlace (put s) (ElementShr.shrWrapping m (view s) k) ∧
    (k > w * (view s).length →
      shlChecked (defaults view put) s k = .ok none ∧
      shrChecked (defaults view put) m s k = .ok none) ∧
    (k ≤ w * (view s).length →
      shlChecked (defaults view put) s k =
        (inPlace (put s) (ElementShl.inner (view s) k)).bind (fun s => .ok (some s)) ∧
      shrChecked (defaults view put) m s k =
        (inPlace (put s) (ElementShr.inner m (view s) k)).bind (fun s => .ok (some s))) := by
  have hb : BitSlice.bitLen (view s) = w * (view s).length := Nat.mul_comm _ _
  refine ⟨innerShl_put h s k, ?_, innerShr_put h m s k, ?_, fun hk => ?_, fun hk => ?_⟩
  · unfold shlWrapping ElementShl.shlWrapping
    simp only [show (defaults view put).bitLen s = .ok (BitSlice.bitLen (view s), s) from rfl,
      Out.ofRes, Out.bind, innerShl_put h]
    cases maskShift m (BitSlice.bitLen (view s)) k <;> rfl
  · unfold shrWrapping ElementShr.shrWrapping
    simp only [show (defaults view put).bitLen s = .ok (BitSlice.bitLen (view s), s) from rfl,
      Out.ofRes, Out.bind, innerShr_put h]
    cases maskShift m (BitSlice.bitLen (view s)) k <;> rfl
  · have : k > BitSlice.bitLen (view s) := by rw [hb]; exact hk
    unfold shlChecked shrChecked
    simp only [show (defaults view put).bitLen s = .ok (BitSlice.bitLen (view s), s) from rfl,
      Out.ofRes, Out.bind, this, if_true, and_self]
  · have : ¬k > BitSlice.bitLen (view s) := by rw [hb]; omega
    unfold shlChecked shrChecked
    simp only [show (defaults view put).bitLen s = .ok (BitSlice.bitLen (view s), s) from rfl,
      Out.ofRes]
    simp only [Out.bind, this, if_false, innerShl_put h, innerShr_put h, and_self]

end Lens

/-- A number of three limbs, its width and its name: `slice` and `slice_mut` show the limbs. -/
private abbrev Named := String × List (BitVec 8)

/-- C173 for a container with more in it than limbs: the rest is left alone. -/
example : innerShl (defaults (σ := Named) Prod.snd (fun s l => (s.1, l)))
    ("x", [0x81#8, 0x01#8, 0x00#8]) 9 = .ok ("x", [0x00#8, 0x02#8, 0x03#8]) ∧
    Place (σ := Named) (w := 8) Prod.snd (fun s l => (s.1, l)) :=
  ⟨by decide, ⟨fun _ _ _ => rfl, fun _ _ _ _ _ => rfl, fun _ => rfl⟩⟩

/-- **C173, the containers of the library**: slices, arrays and vectors are places for limbs, so
no in-place shift the library makes on its own types reaches undefined behaviour. -/
theorem C173_own_containers (m : Mode) (s : List (BitVec w)) (k : Nat) :
    innerShl (plain w) s k = inPlace id (ElementShl.inner s k) ∧
    innerShr (plain w) m s k = inPlace id (ElementShr.inner m s k) ∧
    innerShl (plain w) s k ≠ .ub ∧ innerShr (plain w) m s k ≠ .ub := by
  have h : Place (w := w) (fun s : List (BitVec w) => s) (fun _ l => l) :=
    ⟨fun _ _ _ => rfl, fun _ _ _ _ _ => rfl, fun _ => rfl⟩
  have h1 : innerShl (plain w) s k = inPlace id (ElementShl.inner s k) := innerShl_put h s k
  have h2 : innerShr (plain w) m s k = inPlace id (ElementShr.inner m s k) := innerShr_put h m s k
  refine ⟨h1, h2, ?_, ?_⟩
  · rw [h1]; cases ElementShl.inner s k <;> simp [inPlace]
  · rw [h2]; cases ElementShr.inner m s k <;> simp [inPlace]

private theorem addBit_eq (l r k : Bool) : addBit l r k = .ok (BitwiseAdd.bit l r k) := by
  cases l <;> cases r <;> cases k <;> rfl

private theorem forUpO_sim {α β : Type} {f : Nat → α → Out α} {g : Nat → β → β} {F : β → α}
    (h : ∀ i b, f i (F b) = .ok (F (g i b))) (b : β) : ∀ n, forUpO n f (F b) = .ok (F (forUp n g b))
  | 0 => rfl
  | n + 1 => by
    show (forUpO n f (F b)).bind _ = _
    rw [forUpO_sim h b n]
    exact h n _

private theorem forUpO_simM {α β : Type} {f : Nat → α → Out α} {g : Nat → β → Res β} {F : β → α}
    (h : ∀ i b, f i (F b) = Out.ofRes ((g i b).bind fun b => .ok (F b))) (b : β) :
    ∀ n, forUpO n f (F b) = Out.ofRes ((forUpM n g b).bind fun b => .ok (F b))
  | 0 => rfl
  | n + 1 => by
    show (forUpO n f (F b)).bind _ = _
    rw [forUpO_simM h b n]
    show _ = Out.ofRes (((forUpM n g b).bind (g n)).bind _)
    cases forUpM n g b with
    | ok b' => exact h n b'
    | panic => rfl
    | hang => rfl

/-- **C173, the containers of the library, bitwise addition**: on slices, arrays and vectors it
computes what C16 is about. -/
theorem C173_own_add (s t : List (BitVec w)) :
    bitwiseAdd (plain w) (plain w) s t = .ok (BitwiseAdd.add s t) ∧
    bitwiseAddInPlace (plain w) (plain w) s t = inPlace id (BitwiseAdd.addInPlace s t) := by
  constructor
  · show Out.bind (forUpO (max (BitSlice.bitLen s) (BitSlice.bitLen t) + 1) _
      ((s, t), (List.replicate (max s.length t.length) 0, false))) _ = _
    rw [forUpO_sim (F := fun b : List (BitVec w) × Bool => ((s, t), b))
      (g := fun idx (st : List (BitVec w) × Bool) =>
        let l := (BitSlice.getBitOpt s idx).getD false
        let r := (BitSlice.getBitOpt t idx).getD false
        let (new, carry) := BitwiseAdd.bit l r st.2
        (if new then BitSlice.setBitPush st.1 idx new else st.1, carry))]
    · rfl
    · intro i b
      simp only [plain, defaults, Out.ofRes, Out.bind, addBit_eq]
  · show Out.bind (forUpO (max (BitSlice.bitLen s) (BitSlice.bitLen t) + 1) _
      ((s, t), false)) _ = _
    rw [forUpO_simM (F := fun b : List (BitVec w) × Bool => ((b.1, t), b.2)) (b := (s, false))
      (g := fun idx (st : List (BitVec w) × Bool) =>
        (BitSlice.getBit st.1 idx).bind fun l =>
        (BitSlice.getBit t idx).bind fun r =>
        let (new, carry) := BitwiseAdd.bit l r st.2
        (BitSlice.setBit st.1 idx new).bind fun left => .ok (left, carry))]
    · unfold BitwiseAdd.addInPlace
      dsimp only
      cases forUpM _ _ _ <;> rfl
    · intro i b
      simp only [plain, defaults, addBit_eq]
      cases BitSlice.getBit b.1 i with
      | ok l =>
        cases BitSlice.getBit t i with
        | ok r =>
          simp only [Res.bind, Out.ofRes, Out.bind]
          cases BitSlice.setBit b.1 i (BitwiseAdd.bit l r b.2).1 <;> rfl
        | panic => rfl
        | hang => rfl
      | panic => rfl
      | hang => rfl

/-- C173 for an array of two limbs. -/
example : innerShl (plain 8) [0x81#8, 0x01#8] 9 = .ok [0x00#8, 0x02#8] ∧
    innerShr (plain 8) .debug [0x81#8, 0x01#8] 1 = .ok [0xC0#8, 0x00#8] := by decide

/-! ## Exactly when -/

private theorem shlBody_fixed {c : Methods w σ} {n : Nat} {D : Nat → Prop} (h : Fixed c n D)
    (a e idx : Nat) (s : σ) :
    (D idx → ∃ s', shlBody c a e idx s = .ok s') ∧ (¬D idx → shlBody c a e idx s = .ub) := by
  obtain ⟨v, s1, e1, hv⟩ := h.getOpt s idx
  unfold shlBody
  simp only [e1, Out.ofRes, Out.bind]
  cases v with
  | none =>
    have : ¬D idx := fun hd => by simpa using hv.2 hd
    exact ⟨fun hd => absurd hd this, fun _ => rfl⟩
  | some x =>
    refine ⟨fun _ => ?_, fun hd => absurd (hv.1 rfl) hd⟩
    simp only [Out.unwrapUnchecked]
    obtain ⟨v2, s2, e2, -⟩ := h.getOpt s1 (idx + a)
    simp only [e2]
    obtain ⟨s3, e3⟩ := h.setIgnore s2 (idx + a)
      ((v2.getD 0 &&& ~~~ElementShl.elemMask w e) ||| (x >>> ((w - e) % w) &&& ElementShl.elemMask w e))
    simp only [e3]
    obtain ⟨s4, e4⟩ := h.setIgnore s3 (idx + a - 1) (x <<< e &&& ~~~ElementShl.elemMask w e)
    exact ⟨s4, by simp only [e4]⟩

private theorem readWrite_fixed {c : Methods w σ} {n : Nat} {D : Nat → Prop} (h : Fixed c n D)
    (s : σ) (j : Nat) (f : Option (BitVec w) → BitVec w) :
    ∃ s', ((Out.ofRes (c.getOpt s j)).bind fun (v, s) => Out.ofRes (c.setIgnore s j (f v))) =
      .ok s' := by
  obtain ⟨v2, s2, e2, -⟩ := h.getOpt s j
  obtain ⟨s3, e3⟩ := h.setIgnore s2 j (f v2)
  exact ⟨s3, by simp only [e2, e3, Out.ofRes, Out.bind]⟩

private theorem shrBody_fixed {c : Methods w σ} {n : Nat} {D : Nat → Prop} (h : Fixed c n D)
    (a e idx : Nat) (s : σ) :
    (D idx → ∃ s', shrBody c a e idx s = .ok s') ∧ (¬D idx → shrBody c a e idx s = .ub) := by
  obtain ⟨v, s1, e1, hv⟩ := h.getOpt s idx
  unfold shrBody
  rw [e1]
  cases v with
  | none =>
    have : ¬D idx := fun hd => by simpa using hv.2 hd
    exact ⟨fun hd => absurd hd this, fun _ => rfl⟩
  | some x =>
    refine ⟨fun _ => ?_, fun hd => absurd (hv.1 rfl) hd⟩
    have k1 : ∃ s2, (if a ≤ idx then
        (Out.ofRes (c.getOpt s1 (idx - a))).bind fun (v, s) =>
          Out.ofRes (c.setIgnore s (idx - a) ((v.getD 0 &&& ~~~ElementShr.elemMask w e) |||
            (x <<< ((w - e) % w) &&& ElementShr.elemMask w e)))
        else Out.ok s1) = .ok s2 := by
      split
      · exact readWrite_fixed h s1 (idx - a) fun v =>
          (v.getD 0 &&& ~~~ElementShr.elemMask w e) |||
            (x <<< ((w - e) % w) &&& ElementShr.elemMask w e)
      · exact ⟨s1, rfl⟩
    obtain ⟨s2, k1⟩ := k1
    have k2 : ∃ s3, (if a ≤ idx + 1 then
        (Out.ofRes (c.getOpt s2 (idx + 1 - a))).bind fun (v, s) =>
          Out.ofRes (c.setIgnore s (idx + 1 - a) ((v.getD 0 &&& ElementShr.elemMask w e) |||
            (x >>> e &&& ~~~ElementShr.elemMask w e)))
        else Out.ok s2) = .ok s3 := by
      split
      · exact readWrite_fixed h s2 (idx + 1 - a) fun v =>
          (v.getD 0 &&& ElementShr.elemMask w e) ||| (x >>> e &&& ~~~ElementShr.elemMask w e)
      · exact ⟨s2, rfl⟩
    obtain ⟨s3, k2⟩ := k2
    refine ⟨s3, ?_⟩
    have comb : ∀ (x : Out σ) (f : σ → Out σ), x = .ok s2 → f s2 = .ok s3 → x.bind f = .ok s3 := by
      rintro _ f rfl hf; exact hf
    exact comb _ _ k1 k2

private theorem missing {D : Nat → Prop} {n : Nat} (h : ¬∀ i, i < n → D i) :
    ∃ i, i < n ∧ ¬D i :=
  Classical.byContradiction fun hc =>
    h fun i hi => Classical.byContradiction fun hn => hc ⟨i, hi, hn⟩

private theorem forDownO_fixed {f : Nat → σ → Out σ} {D : Nat → Prop}
    (h : ∀ i s, (D i → ∃ s', f i s = .ok s') ∧ (¬D i → f i s = .ub)) :
    ∀ n s, (forDownO n f s = .ub ↔ ∃ i, i < n ∧ ¬D i) ∧
      ((∀ i, i < n → D i) → ∃ s', forDownO n f s = .ok s')
  | 0, s => ⟨⟨fun e => by simp [forDownO] at e, fun ⟨i, hi, _⟩ => absurd hi (by omega)⟩,
      fun _ => ⟨s, rfl⟩⟩
  | n + 1, s => by
    by_cases hd : D n
    · obtain ⟨s', e⟩ := (h n s).1 hd
      have e' : forDownO (n + 1) f s = forDownO n f s' := by
        show (f n s).bind _ = _
        rw [e]; rfl
      obtain ⟨k1, k2⟩ := forDownO_fixed h n s'
      rw [e', k1]
      refine ⟨⟨fun ⟨i, hi, hn⟩ => ⟨i, by omega, hn⟩, fun ⟨i, hi, hn⟩ => ⟨i, ?_, hn⟩⟩,
        fun hall => k2 fun i hi => hall i (by omega)⟩
      have : i ≠ n := fun hin => hn (hin ▸ hd)
      omega
    · have e' : forDownO (n + 1) f s = .ub := by
        show (f n s).bind _ = _
        rw [(h n s).2 hd]; rfl
      exact ⟨⟨fun _ => ⟨n, by omega, hd⟩, fun _ => e'⟩, fun hall => absurd (hall n (by omega)) hd⟩

private theorem forUpO_fixed {f : Nat → σ → Out σ} {D : Nat → Prop}
    (h : ∀ i s, (D i → ∃ s', f i s = .ok s') ∧ (¬D i → f i s = .ub)) (s : σ) :
    ∀ n, (forUpO n f s = .ub ↔ ∃ i, i < n ∧ ¬D i) ∧
      ((∀ i, i < n → D i) → ∃ s', forUpO n f s = .ok s')
  | 0 => ⟨⟨fun e => by simp [forUpO] at e, fun ⟨i, hi, _⟩ => absurd hi (by omega)⟩,
      fun _ => ⟨s, rfl⟩⟩
  | n + 1 => by
    obtain ⟨k1, k2⟩ := forUpO_fixed h s n
    by_cases hall : ∀ i, i < n → D i
    · obtain ⟨s', e⟩ := k2 hall
      have e' : forUpO (n + 1) f s = f n s' := by
        show (forUpO n f s).bind _ = _
        rw [e]; rfl
      by_cases hd : D n
      · obtain ⟨s2, e2⟩ := (h n s').1 hd
        refine ⟨⟨fun e3 => ?_, fun ⟨i, hi, hn⟩ => ?_⟩, fun _ => ⟨s2, by rw [e', e2]⟩⟩
        · rw [e', e2] at e3; simp at e3
        · by_cases hin : i = n
          · exact absurd (hin ▸ hd) hn
          · exact absurd (hall i (by omega)) hn
      · refine ⟨⟨fun _ => ⟨n, by omega, hd⟩, fun _ => by rw [e', (h n s').2 hd]⟩,
          fun ha => absurd (ha n (by omega)) hd⟩
    · have := missing hall
      have e' : forUpO (n + 1) f s = .ub := by
        show (forUpO n f s).bind _ = _
        rw [k1.2 this]; rfl
      obtain ⟨i, hi, hn⟩ := this
      exact ⟨⟨fun _ => ⟨i, by omega, hn⟩, fun _ => e'⟩, fun ha => absurd (ha i (by omega)) hn⟩

/-- **C173, exactly when**: with a container that always shows `n` limbs, never panics, and always
answers `None` on the same indices, an in-place shift is undefined behaviour exactly when one of
the `n` limbs is answered with `None`. -/
theorem C173_exact_partial {c : Methods w σ} {n : Nat} {D : Nat → Prop} (h : Fixed c n D)
    (m : Mode) (s : σ) (k : Nat) :
    (innerShl c s k = .ub ↔ ∃ i, i < n ∧ ¬D i) ∧ (innerShr c m s k = .ub ↔ ∃ i, i < n ∧ ¬D i) := by
  obtain ⟨s1, e1⟩ := h.sliceLen s
  constructor
  · unfold innerShl
    rw [e1]
    obtain ⟨k1, k2⟩ := forDownO_fixed (shlBody_fixed h (k / w + 1) (k % w)) n s1
    show Out.bind (forDownO n _ s1) _ = _ ↔ _
    by_cases hall : ∀ i, i < n → D i
    · obtain ⟨s2, e2⟩ := k2 hall
      rw [e2]
      refine ⟨fun e => absurd e ?_, fun ⟨i, hi, hn⟩ => absurd (hall i hi) hn⟩
      refine Out.bind_ne_ub (by simp) fun s3 _ => ?_
      refine Out.bind_ne_ub (Out.ofRes_ne_ub _) fun q _ => ?_
      dsimp only
      split <;> simp
    · have := missing hall
      rw [k1.2 this]
      exact ⟨fun _ => this, fun _ => rfl⟩
  · unfold innerShr
    rw [e1]
    obtain ⟨k1, k2⟩ := forUpO_fixed (shrBody_fixed h (k / w + 1) (k % w)) s1 n
    show Out.bind (forUpO n _ s1) _ = _ ↔ _
    by_cases hall : ∀ i, i < n → D i
    · obtain ⟨s2, e2⟩ := k2 hall
      rw [e2]
      refine ⟨fun e => absurd e ?_, fun ⟨i, hi, hn⟩ => absurd (hall i hi) hn⟩
      refine Out.bind_ne_ub (by simp) fun s3 _ => ?_
      refine Out.bind_ne_ub (Out.ofRes_ne_ub _) fun q _ => ?_
      refine Out.bind_ne_ub (Out.ofRes_ne_ub _) fun e _ => ?_
      refine Out.bind_ne_ub (Out.ofRes_ne_ub _) fun q _ => ?_
      dsimp only
      split <;> simp
    · have := missing hall
      rw [k1.2 this]
      exact ⟨fun _ => this, fun _ => rfl⟩

/-- An array whose `get_opt` leaves out the limb at `1`. -/
private def hole : Methods 8 (List (BitVec 8)) :=
  { plain 8 with
    sliceLen := fun s => .ok (2, s)
    getOpt := fun s i => .ok (if i = 1 then none else some (s.getD i 0), s) }

/-- C173's exact condition for a container with a limb missing. -/
example : innerShl hole [1#8, 2#8] 3 = .ub :=
  (C173_exact_partial (n := 2) (D := fun i => i ≠ 1)
    ⟨fun s => ⟨s, rfl⟩, fun s i => ⟨_, s, rfl, by by_cases h : i = 1 <;> simp [h]⟩,
      fun s i v => ⟨_, rfl⟩⟩ .debug _ _).1.2 ⟨1, by omega, by simp⟩

/-! ## The violation -/

/-- The limbs of a number without its leading zero limbs, as `slice` of a container that stores
numbers of any length may well show them. -/
private def trimmed (s : List (BitVec 8)) : List (BitVec 8) :=
  (s.reverse.dropWhile (· == 0)).reverse

/-- A container that shows its limbs without leading zeros, and takes all other methods as they
are given. -/
private def trimming : Methods 8 (List (BitVec 8)) :=
  defaults trimmed (fun s l => l ++ s.drop l.length)

/-- A container that stores only limbs that are not zero, and answers `None` for the others. -/
private def sparse : Methods 8 (List (BitVec 8)) :=
  { plain 8 with getOpt := fun s i => .ok ((s[i]?).filter (· ≠ 0), s) }

/-- **C173, violated**: safe code alone can bring about undefined behaviour. A container that
shows its limbs without leading zeros reaches it by shifting `0x8000` left by one; a container that
answers `None` for zero limbs reaches it by shifting `0x0100` right by one. Both are in range. -/
theorem C173_violated :
    (∃ (c : Methods 8 (List (BitVec 8))) (s : List (BitVec 8)),
      shlChecked c s 1 = .ub ∧ ∀ m, shlWrapping c m s 1 = .ub) ∧
    (∃ (c : Methods 8 (List (BitVec 8))) (s : List (BitVec 8)),
      ∀ m, shrChecked c m s 1 = .ub ∧ shrWrapping c m s 1 = .ub) := by
  refine ⟨⟨trimming, [0x00#8, 0x80#8], ?_, ?_⟩, ⟨sparse, [0x00#8, 0x01#8], ?_⟩⟩
  · decide +kernel
  · intro m; cases m <;> decide +kernel
  · intro m; cases m <;> constructor <;> decide +kernel

end Container

end Verif
