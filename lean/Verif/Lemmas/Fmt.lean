import Verif.Spec.Fmt

/-!
# Lemmas on writing to a formatter
-/

namespace Verif

/-- `x` writes the text `r`: it hands it to the writer piece by piece and stops at the first refusal. -/
def Writes (x : Fmt) (r : Res (List Char)) : Prop :=
  ∀ f h,
    match x f h with
    | (.ok true, h') => ∃ ws, h' = h ++ ws ∧ r = .ok ws.flatten ∧
        ∀ p, p ≠ [] → p <+: ws → f.accepts (h ++ p) = true
    | (.ok false, h') => ∃ ws w, h' = h ++ (ws ++ [w]) ∧ f.accepts h' = false ∧
        (∀ p, p ≠ [] → p <+: ws → f.accepts (h ++ p) = true) ∧
        ∀ t, r = .ok t → (ws ++ [w]).flatten <+: t
    | (.panic, _) => r = .panic
    | (.hang, _) => r = .hang

namespace Writes

open Fmt

theorem done : Writes Fmt.done (.ok []) := by
  intro f h
  refine ⟨[], by simp, by simp, ?_⟩
  intro p hp h1
  exact absurd (List.prefix_nil.mp h1) hp

theorem write (s : List Char) : Writes (Fmt.write s) (.ok s) := by
  intro f h
  unfold Fmt.write
  cases ha : f.accepts (h ++ [s]) with
  | true =>
    refine ⟨[s], rfl, by simp, ?_⟩
    intro p hp h1
    obtain ⟨t, ht⟩ := h1
    cases p with
    | nil => exact absurd rfl hp
    | cons a as =>
      simp only [List.cons_append, List.cons.injEq, List.append_eq_nil_iff] at ht
      rw [ht.1, ht.2.1]; exact ha
  | false =>
    refine ⟨[], s, rfl, ha, ?_, ?_⟩
    · intro p hp h1
      exact absurd (List.prefix_nil.mp h1) hp
    · intro t ht
      cases ht
      simp

theorem comp {α : Type} (r : Res α) {k : α → Fmt} {t : α → Res (List Char)}
    (hk : ∀ a, r = .ok a → Writes (k a) (t a)) : Writes (Fmt.comp r k) (r.bind t) := by
  intro f h
  unfold Fmt.comp
  cases r with
  | ok a => exact hk a rfl f h
  | panic => rfl
  | hang => rfl

private theorem prefix_append_cases {α : Type} {p l m : List α} (h : p <+: l ++ m) :
    p <+: l ∨ ∃ q, q ≠ [] ∧ p = l ++ q ∧ q <+: m := by
  rcases List.prefix_or_prefix_of_prefix h (List.prefix_append l m) with h1 | h1
  · exact .inl h1
  · obtain ⟨q, rfl⟩ := h1
    by_cases hq : q = []
    · left; rw [hq]; simp
    · right; exact ⟨q, hq, rfl, (List.prefix_append_right_inj l).mp h⟩

theorem seq {x y : Fmt} {r s : Res (List Char)} (hx : Writes x r) (hy : Writes y s) :
    Writes (x.seq y) (r.bind fun a => s.bind fun b => .ok (a ++ b)) := by
  intro f h
  have h1 := hx f h
  unfold Fmt.seq
  generalize x f h = p at h1 ⊢
  obtain ⟨o, h'⟩ := p
  cases o with
  | panic => simp only at h1 ⊢; rw [h1]; rfl
  | hang => simp only at h1 ⊢; rw [h1]; rfl
  | ok b =>
    cases b with
    | false =>
      simp only at h1 ⊢
      obtain ⟨ws, w, e1, e2, e3, e4⟩ := h1
      refine ⟨ws, w, e1, e2, e3, ?_⟩
      intro t ht
      cases r with
      | ok a =>
        simp only [Res.bind] at ht
        cases s with
        | ok b =>
          simp only [Res.bind, Res.ok.injEq] at ht
          rw [← ht]
          exact (e4 a rfl).trans (List.prefix_append a b)
        | panic => cases ht
        | hang => cases ht
      | panic => cases ht
      | hang => cases ht
    | true =>
      simp only at h1 ⊢
      obtain ⟨ws, e1, e2, e3⟩ := h1
      have h2 := hy f h'
      generalize y f h' = q at h2 ⊢
      obtain ⟨o, h''⟩ := q
      rw [e2]
      cases o with
      | panic => simp only at h2 ⊢; rw [h2]; rfl
      | hang => simp only at h2 ⊢; rw [h2]; rfl
      | ok b =>
        cases b with
        | true =>
          simp only at h2 ⊢
          obtain ⟨vs, g1, g2, g3⟩ := h2
          refine ⟨ws ++ vs, by rw [g1, e1, List.append_assoc], by rw [g2]; simp [Res.bind], ?_⟩
          intro p hp hpre
          rcases prefix_append_cases hpre with hh | ⟨q, hq, rfl, hh⟩
          · exact e3 p hp hh
          · have := g3 q hq hh
            rwa [e1, List.append_assoc] at this
        | false =>
          simp only at h2 ⊢
          obtain ⟨vs, v, g1, g2, g3, g4⟩ := h2
          refine ⟨ws ++ vs, v, by rw [g1, e1]; simp, g2, ?_, ?_⟩
          · intro p hp hpre
            rcases prefix_append_cases hpre with hh | ⟨q, hq, rfl, hh⟩
            · exact e3 p hp hh
            · have := g3 q hq hh
              rwa [e1, List.append_assoc] at this
          · intro t ht
            cases s with
            | ok b =>
              simp only [Res.bind, Res.ok.injEq] at ht
              rw [← ht, List.append_assoc, List.flatten_append]
              exact (List.prefix_append_right_inj _).mpr (g4 b rfl)
            | panic => cases ht
            | hang => cases ht

/-- `seq` with a first part that always has a text. -/
theorem seq_ok {x y : Fmt} {a : List Char} {s : Res (List Char)} (hx : Writes x (.ok a))
    (hy : Writes y s) : Writes (x.seq y) (s.bind fun b => .ok (a ++ b)) := seq hx hy

theorem prim (z : Int) : Writes (Fmt.prim z) (.ok (RatM.intText z)) := by
  unfold Fmt.prim RatM.intText
  split
  · exact seq (write ['-']) (write _)
  · exact write _

theorem digits (chars : List Char) (ds : List (BitVec 8)) :
    Writes (Fmt.digits chars ds) (BInt.writeDigits chars ds) := by
  induction ds with
  | nil => exact done
  | cons d ds ih =>
    unfold Fmt.digits BInt.writeDigits
    exact comp _ fun c _ => seq_ok (write [c]) ih

end Writes

/-- The digits of `U`, written one after the other. -/
theorem foldl_digits (chars : List Char) (ds : List (BitVec 8)) :
    ∀ acc : Res (List Char), ds.foldl (fun out d =>
      out.bind fun out => (Res.ofOption chars[d.toNat]?).bind fun c => .ok (out ++ [c])) acc
    = acc.bind fun out => (BInt.writeDigits chars ds).bind fun cs => .ok (out ++ cs) := by
  induction ds with
  | nil => intro acc; cases acc <;> simp [BInt.writeDigits, Res.bind]
  | cons d ds ih =>
    intro acc
    rw [List.foldl_cons, ih]
    have e : BInt.writeDigits chars (d :: ds) = (Res.ofOption chars[d.toNat]?).bind fun c =>
      (BInt.writeDigits chars ds).bind fun cs => .ok (c :: cs) := rfl
    rw [e]
    cases acc with
    | ok out =>
      simp only [Res.bind]
      cases Res.ofOption chars[d.toNat]? with
      | ok c =>
        simp only [Res.bind]
        cases BInt.writeDigits chars ds <;> simp [Res.bind]
      | panic => rfl
      | hang => rfl
    | panic => rfl
    | hang => rfl

theorem writes_u_base (m : Mode) (fuel : Nat) (a : Bytes) (base : Nat) (chars : List Char) :
    Writes (UN.fmtBase m fuel a base chars) (UN.writeBase m fuel a base chars) := by
  unfold UN.fmtBase UN.writeBase
  refine Writes.comp _ fun o _ => Writes.comp _ fun b _ => Writes.comp _ fun ds _ => ?_
  simp only
  rw [foldl_digits]
  have := Writes.digits chars (if ds.isEmpty then [0] else ds).reverse
  simp only [Res.bind, List.nil_append]
  cases h : BInt.writeDigits chars (if ds.isEmpty then [0] else ds).reverse <;> rw [h] at this <;>
    exact this

theorem writes_big_base (m : Mode) (fuel : Nat) (base : BitVec 64) (chars : List Char) (b : BInt) :
    Writes (BInt.fmtBase m fuel base chars b) (BInt.writeBase m fuel base chars b) :=
  Writes.comp _ fun _ _ => Writes.digits chars _

theorem writes_sign (b : BInt) {x : Fmt} {r : Res (List Char)} (hx : Writes x r) :
    Writes (BInt.fmtSign b x) (r.bind fun cs => .ok (BInt.signChars b ++ cs)) := by
  unfold BInt.fmtSign BInt.signChars
  split
  · exact Writes.seq_ok (Writes.write ['-']) hx
  · cases r <;> exact hx

theorem writes_bits (s : List (BitVec 64)) (n : Nat) (acc : List Char) :
    ∃ r, Writes (BInt.fmtBits s n) r ∧
      forDownM n (fun idx (cs : List Char) =>
        (BitSlice.getBit s idx).bind fun x => .ok (cs ++ [if x then '1' else '0'])) acc
      = r.bind fun cs => .ok (acc ++ cs) := by
  induction n generalizing acc with
  | zero => exact ⟨.ok [], Writes.done, by simp [forDownM, Res.bind]⟩
  | succ n ih =>
    unfold BInt.fmtBits forDownM
    cases hg : BitSlice.getBit s n with
    | ok x =>
      obtain ⟨r, h1, h2⟩ := ih (acc ++ [if x then '1' else '0'])
      refine ⟨r.bind fun cs => .ok ([if x then '1' else '0'] ++ cs), ?_, ?_⟩
      · have hp : Writes (Fmt.prim (if x then 1 else 0)) (.ok [if x then '1' else '0']) := by
          have := Writes.prim (if x then 1 else 0)
          cases x <;> exact this
        exact Writes.comp (.ok x) fun _ _ => Writes.seq_ok hp h1
      · simp only [hg]
        change forDownM n _ (acc ++ [if x then '1' else '0']) = _
        rw [h2]
        cases r <;> simp [Res.bind]
    | panic =>
      refine ⟨.panic, Writes.comp (t := fun _ => .panic) .panic fun _ h => (by cases h), ?_⟩
      simp only [hg]; rfl
    | hang =>
      refine ⟨.hang, Writes.comp (t := fun _ => .hang) .hang fun _ h => (by cases h), ?_⟩
      simp only [hg]; rfl

end Verif
