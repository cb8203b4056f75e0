import Verif.Lemmas.Fmt
import Verif.Props.BigIntExact
import Verif.Props.RatText

/-!
# C175-C177: format options, writers that fail, and the debug text of `I`
-/

namespace Verif

open Fmt

/-! ## C176 -/

theorem Writes.delivers {x : Fmt} {r : Res (List Char)} (hx : Writes x r) : Delivers x r := by
  intro f
  have h := hx f []
  generalize x f [] = p at h ⊢
  obtain ⟨o, h'⟩ := p
  cases o with
  | panic => exact h
  | hang => exact h
  | ok b =>
    cases b with
    | true =>
      obtain ⟨ws, e1, e2, e3⟩ := h
      simp only [List.nil_append] at e1 e3
      subst e1
      exact ⟨e2, e3⟩
    | false =>
      obtain ⟨ws, w, e1, e2, e3, e4⟩ := h
      simp only [List.nil_append] at e1 e3
      subst e1
      refine ⟨by simp, e2, ?_, e4⟩
      intro p hp hpre hne
      refine e3 p hp ?_
      rcases List.prefix_concat_iff.mp hpre with h | h
      · exact absurd h hne
      · exact h

/-- What is written does not depend on the options. -/
theorem Writes.text {x : Fmt} {r : Res (List Char)} (hx : Writes x r) (o : FmtOpts) :
    Fmt.text x o = r := by
  have h := hx { opts := o } []
  unfold Fmt.text
  generalize x { opts := o } [] = p at h ⊢
  obtain ⟨u, h'⟩ := p
  cases u with
  | panic => exact h.symm
  | hang => exact h.symm
  | ok b =>
    cases b with
    | true =>
      obtain ⟨ws, e1, e2, _⟩ := h
      rw [e2, e1]; rfl
    | false =>
      obtain ⟨ws, w, _, e, _⟩ := h
      cases e

theorem writes_i (a : Bytes) : ∃ t, Writes (IN.fmtElems a) (.ok t) := by
  induction a with
  | nil => exact ⟨_, Writes.done⟩
  | cons x xs ih =>
    cases xs with
    | nil => exact ⟨_, Writes.prim _⟩
    | cons y ys =>
      obtain ⟨t, ht⟩ := ih
      exact ⟨_, Writes.seq_ok (Writes.prim _) (Writes.seq_ok (Writes.write _) ht)⟩

/-- C176: every formatting function delivers its text to every writer up to the first refusal, and returns an
error exactly if there is one. -/
theorem C176_delivers (m : Mode) (fuel : Nat) (a : Bytes) (b : BInt) (p : Prim) (N : Nat) (x : Int)
    (q : RatM) :
    (Delivers (UN.fmtDisplay m fuel a) (UN.display m fuel a) ∧
      Delivers (UN.fmtDebug m fuel a) (UN.display m fuel a)) ∧
    (Delivers (BInt.fmtDisplay m fuel b) (BInt.display m fuel b) ∧
      Delivers (BInt.fmtDebug m fuel b) (BInt.display m fuel b) ∧
      Delivers (BInt.fmtUpperHex m fuel b) (BInt.upperHex m fuel b) ∧
      Delivers (BInt.fmtLowerHex m fuel b) (BInt.lowerHex m fuel b) ∧
      Delivers (BInt.fmtBinary b) (BInt.binary b)) ∧
    (Delivers (Fixed.fmtDebug m p N x) (Fixed.debug m p N x) ∧
      Delivers (Fixed.fmtBinary m p N x) (Fixed.binary m p N x)) ∧
    Delivers (RatM.fmtDebug q) (.ok (RatM.debug q)) ∧
    Delivers (IN.fmtDebug a) (Fmt.text (IN.fmtDebug a) {}) := by
  have hex : ∀ chars, Writes (BInt.fmtSign b ((write ['0', 'x']).seq (BInt.fmtBase m fuel 16 chars b)))
      ((BInt.writeBase m fuel 16 chars b).bind fun cs => .ok (BInt.signChars b ++ ['0', 'x'] ++ cs)) := by
    intro chars
    have := writes_sign b (Writes.seq_ok (Writes.write ['0', 'x']) (writes_big_base m fuel 16 chars b))
    cases h : BInt.writeBase m fuel 16 chars b <;> rw [h] at this <;>
      simpa only [Res.bind, List.append_assoc] using this
  have dec := writes_sign b (writes_big_base m fuel 10 BInt.decChars b)
  have u := writes_u_base m fuel a 10 UN.decDigits
  refine ⟨⟨?_, ?_⟩, ⟨?_, ?_, ?_, ?_, ?_⟩, ⟨?_, ?_⟩, ?_, ?_⟩
  · unfold UN.fmtDisplay UN.display
    with_reducible exact u.delivers
  · unfold UN.fmtDebug UN.fmtDisplay UN.display
    with_reducible exact u.delivers
  · unfold BInt.fmtDisplay BInt.display
    with_reducible exact dec.delivers
  · unfold BInt.fmtDebug BInt.fmtDisplay BInt.display
    with_reducible exact dec.delivers
  · unfold BInt.fmtUpperHex BInt.upperHex
    with_reducible exact (hex _).delivers
  · unfold BInt.fmtLowerHex BInt.lowerHex
    with_reducible exact (hex _).delivers
  · obtain ⟨r, h1, h2⟩ := writes_bits b.limbs (BitSlice.bitLen b.limbs) []
    have := writes_sign b (Writes.seq_ok (Writes.write ['0', 'b']) h1)
    unfold BInt.binary BInt.fmtBinary
    rw [h2]
    cases r <;> simpa [Res.bind] using this.delivers
  · unfold Fixed.fmtDebug
    have := Writes.comp (Fixed.debug m p N x) (k := fun s => write s) (t := fun s => .ok s)
      fun s _ => Writes.write s
    cases h : Fixed.debug m p N x <;> rw [h] at this <;> exact this.delivers
  · refine Writes.delivers (Writes.comp _ fun t _ => Writes.comp _ fun f _ => ?_)
    have := Writes.seq (Writes.write (Fixed.binText p t))
      (Writes.seq (Writes.write ['.']) (Writes.write (Fixed.binText p f)))
    simpa only [Res.bind, List.append_assoc] using this
  · have := Writes.seq (Writes.prim q.num) (Writes.seq (Writes.write [' ', '/', ' ']) (Writes.prim q.denom))
    refine Writes.delivers ?_
    unfold RatM.debug RatM.fmtDebug
    simpa only [Res.bind, List.append_assoc] using this
  · obtain ⟨t, ht⟩ := writes_i a
    have hw := Writes.seq_ok (Writes.write ['I']) (Writes.seq_ok (Writes.write ['('])
      (Writes.seq_ok (Writes.write ['[']) (Writes.seq_ok ht
        (Writes.seq_ok (Writes.write [']']) (Writes.write [')'])))))
    have e := hw.text {}
    have hd := hw.delivers
    rw [← e] at hd
    exact hd

/-- A writer with room for three characters: `255` fits, and of `-0x0` (how -1 is printed) the sign is
accepted and `0x` is not offered again. -/
example :
    UN.fmtDisplay .debug 9 [255#8] { accepts := fun h => decide (h.flatten.length ≤ 3) } []
      = (.ok true, [['2'], ['5'], ['5']]) ∧
    BInt.fmtLowerHex .debug 9 ⟨true, .inline 1⟩ { accepts := fun h => decide (h.flatten.length ≤ 2) } []
      = (.ok false, [['-'], ['0', 'x']]) := by decide +kernel

/-! ## C175 -/

theorem stdInt_length (o : FmtOpts) (pre ds : List Char) :
    (stdInt o true pre ds).length =
      max (o.width.getD 0) ((if o.plus then 1 else 0) + (if o.alternate then pre.length else 0) + ds.length) := by
  unfold stdInt
  cases o.plus <;> cases o.alternate <;> cases o.zero <;> rcases o.align with _ | _ | _ | _ <;>
    simp only [if_true, if_false, Bool.false_eq_true, List.length_append, List.length_replicate,
      List.length_cons, List.length_nil] <;> omega

theorem stdInt_plain (o : FmtOpts) (ds : List Char) :
    ds = stdInt o true [] ds ↔ o.plus = false ∧ o.width.getD 0 ≤ ds.length := by
  constructor
  · intro h
    have h1 := congrArg List.length h
    rw [stdInt_length] at h1
    cases hp : o.plus with
    | true => rw [hp] at h1; simp at h1; omega
    | false => rw [hp] at h1; simp at h1; exact ⟨rfl, by omega⟩
  · rintro ⟨h1, h2⟩
    unfold stdInt
    have e : o.width.getD 0 - ds.length = 0 := by omega
    cases o.alternate <;> cases o.zero <;> rcases o.align with _ | _ | _ | _ <;> simp [h1, e]

theorem stdInt_hex (o : FmtOpts) (ds : List Char) (h0 : ds ≠ []) (hx : 'x' ∉ ds) (hp : '+' ∉ ds) :
    '0' :: 'x' :: ds = stdInt o true ['0', 'x'] ds ↔
      o.alternate = true ∧ o.plus = false ∧ o.width.getD 0 ≤ ds.length + 2 := by
  constructor
  · intro h
    have h1 := congrArg List.length h
    rw [stdInt_length] at h1
    cases hpl : o.plus with
    | true =>
      have : '+' ∈ stdInt o true ['0', 'x'] ds := by
        unfold stdInt
        rw [hpl]
        cases o.zero <;> simp
      rw [← h] at this
      simp [hp] at this
    | false =>
      rw [hpl] at h1
      cases ha : o.alternate with
      | true => rw [ha] at h1; simp at h1; exact ⟨rfl, rfl, by omega⟩
      | false =>
        exfalso
        rw [ha] at h1
        simp at h1
        have e : o.width.getD 0 - ds.length = 2 := by omega
        obtain ⟨d, t, rfl⟩ := List.exists_cons_of_ne_nil h0
        simp only [List.mem_cons, not_or] at hx
        unfold stdInt at h
        rw [hpl, ha] at h
        simp only [if_true, Bool.false_eq_true, if_false, List.append_nil, List.length_nil, Nat.zero_add,
          e] at h
        cases hz : o.zero with
        | true =>
          rw [hz] at h
          simp [List.replicate] at h
        | false =>
          rw [hz] at h
          rcases hal : o.align with _ | al
          · rw [hal] at h
            simp [List.replicate] at h
            exact absurd (h.1.trans h.2.symm) (by decide)
          · rw [hal] at h
            cases al with
            | left =>
              simp [List.replicate] at h
              cases t with
              | nil =>
                simp at h
                obtain ⟨g1, g2, g3⟩ := h
                exact hx.1 (g2.trans g3.symm)
              | cons u v =>
                simp at h
                exact hx.2 (List.mem_cons.mpr (.inl h.2.1))
            | center =>
              simp [List.replicate] at h
              exact hx.1 h.2.1
            | right =>
              simp [List.replicate] at h
              exact absurd (h.1.trans h.2.symm) (by decide)
  · rintro ⟨h1, h2, h3⟩
    unfold stdInt
    have e : o.width.getD 0 - (2 + ds.length) = 0 := by omega
    cases o.zero <;> rcases o.align with _ | _ | _ | _ <;> simp [h1, h2, e]

/-- C175: the options are ignored by all formatting functions but those derived. Missing, because false: that
they are honoured. -/
theorem C175_ignored_partial (m : Mode) (fuel : Nat) (a : Bytes) (b : BInt) (o : FmtOpts) (p : Prim)
    (N : Nat) (x : Int) (q : RatM) :
    Fmt.text (UN.fmtDisplay m fuel a) o = UN.display m fuel a ∧
    Fmt.text (UN.fmtDebug m fuel a) o = UN.display m fuel a ∧
    Fmt.text (BInt.fmtDisplay m fuel b) o = BInt.display m fuel b ∧
    Fmt.text (BInt.fmtDebug m fuel b) o = BInt.display m fuel b ∧
    Fmt.text (BInt.fmtUpperHex m fuel b) o = BInt.upperHex m fuel b ∧
    Fmt.text (BInt.fmtLowerHex m fuel b) o = BInt.lowerHex m fuel b ∧
    Fmt.text (BInt.fmtBinary b) o = BInt.binary b ∧
    Fmt.text (Fixed.fmtDebug m p N x) o = Fixed.debug m p N x ∧
    Fmt.text (Fixed.fmtBinary m p N x) o = Fixed.binary m p N x ∧
    Fmt.text (RatM.fmtDebug q) o = .ok (RatM.debug q) := by
  have key : ∀ {x : Fmt} {r : Res (List Char)}, Delivers x r → Fmt.text x o = r := by
    intro x r hx
    have h := hx { opts := o }
    unfold Fmt.text
    generalize x { opts := o } [] = p at h ⊢
    obtain ⟨u, h'⟩ := p
    cases u with
    | panic => exact h.symm
    | hang => exact h.symm
    | ok b =>
      cases b with
      | true => exact h.1.symm
      | false => exact absurd h.2.1 (by simp)
  obtain ⟨⟨h1, h2⟩, ⟨h3, h4, h5, h6, h7⟩, ⟨h8, h9⟩, h10, _⟩ := C176_delivers m fuel a b p N x q
  exact ⟨key h1, key h2, key h3, key h4, key h5, key h6, key h7, key h8, key h9, key h10⟩

/-- C175 is violated, with every option: `{:>5}` of `U<1>` 7 is `7`, not `    7`; `{:+}` of the `BigInt` 7 is `7`,
not `+7`; `{:x}` of it is `0x7`, not `7`; and `{:#b}` of it has 64 digits, not 3. -/
theorem C175_violated :
    Fmt.text (UN.fmtDisplay .debug 9 [7#8]) { width := some 5, align := some .right } = .ok ['7'] ∧
    stdInt { width := some 5, align := some .right } true [] ['7'] = [' ', ' ', ' ', ' ', '7'] ∧
    Fmt.text (BInt.fmtDisplay .debug 65 ⟨false, .inline 7⟩) { plus := true } = .ok ['7'] ∧
    stdInt { plus := true } true [] ['7'] = ['+', '7'] ∧
    Fmt.text (BInt.fmtLowerHex .debug 65 ⟨false, .inline 7⟩) {} = .ok ['0', 'x', '7'] ∧
    stdInt {} true ['0', 'x'] ['7'] = ['7'] ∧
    (∃ s, Fmt.text (BInt.fmtBinary ⟨false, .inline 7⟩) { alternate := true } = .ok s ∧ s.length = 66) ∧
    stdInt { alternate := true } true ['0', 'b'] ['1', '1', '1'] = ['0', 'b', '1', '1', '1'] := by
  have h := fun o => C175_ignored_partial .debug 65 [] ⟨false, .inline 7⟩ o Prim.i32 0 0 ⟨0, 1⟩
  refine ⟨?_, by decide +kernel, ?_, by decide +kernel, ?_, by decide +kernel, ?_, by decide +kernel⟩
  · rw [(C175_ignored_partial .debug 9 [7#8] ⟨false, .inline 7⟩ _ Prim.i32 0 0 ⟨0, 1⟩).1]
    decide +kernel
  · rw [(h _).2.2.1]
    decide +kernel
  · rw [(h _).2.2.2.2.2.1]
    decide +kernel
  · rw [(h _).2.2.2.2.2.2.1]
    exact ⟨_, rfl, by decide +kernel⟩

/-- C175, exactly, for what prints rightly at all (`U<1>`, and nonnegative `BigInt`s in decimal and
hexadecimal): the text is that of the core library exactly if no `+` is given and the width is at most
the length of the text, and for hexadecimal if moreover `#` is given. -/
theorem C175_exact_partial (m : Mode) (o : FmtOpts) :
    (∀ x : BitVec 8, ∃ fuel₀, ∀ fuel, fuel₀ ≤ fuel →
      (Fmt.text (UN.fmtDisplay m fuel [x]) o = .ok (stdInt o true [] (Nat.toDigits 10 x.toNat)) ↔
        o.plus = false ∧ o.width.getD 0 ≤ (Nat.toDigits 10 x.toNat).length)) ∧
    (∀ (b : BInt) (fuel : Nat), BInt.Canon b → 0 ≤ BInt.ival b → 64 * b.limbs.length < 2 ^ 64 →
      64 * b.limbs.length < fuel →
      let n := (BInt.ival b).toNat
      let hex := Nat.toDigits 16 n
      (Fmt.text (BInt.fmtDisplay m fuel b) o = .ok (stdInt o true [] (Nat.toDigits 10 n)) ↔
        o.plus = false ∧ o.width.getD 0 ≤ (Nat.toDigits 10 n).length) ∧
      (Fmt.text (BInt.fmtLowerHex m fuel b) o = .ok (stdInt o true ['0', 'x'] hex) ↔
        o.alternate = true ∧ o.plus = false ∧ o.width.getD 0 ≤ hex.length + 2) ∧
      (Fmt.text (BInt.fmtUpperHex m fuel b) o = .ok (stdInt o true ['0', 'x'] (hex.map Char.toUpper)) ↔
        o.alternate = true ∧ o.plus = false ∧ o.width.getD 0 ≤ hex.length + 2)) := by
  constructor
  · intro x
    obtain ⟨f₀, h⟩ := C37_display_partial m x
    refine ⟨f₀, fun fuel hf => ?_⟩
    rw [(C175_ignored_partial m fuel [x] ⟨false, .inline 0⟩ o Prim.i32 0 0 ⟨0, 1⟩).1, h fuel hf]
    have e : val [x] = x.toNat := by simp [val]
    rw [e, Res.ok.injEq, stdInt_plain]
  · intro b fuel hb h0 hl hf
    obtain ⟨_, _, i1, _, i2, i3, _⟩ := C175_ignored_partial m fuel [] b o Prim.i32 0 0 ⟨0, 1⟩
    obtain ⟨p1, p2, p3⟩ := C51_print_partial m b hb h0 hl fuel hf
    simp only
    rw [i1, i2, i3, p1, p2, p3, Res.ok.injEq, Res.ok.injEq, Res.ok.injEq]
    have hlow : ∀ (g : Char → Char), (∀ d < 16, digitValue (g d.digitChar) = some d) →
        ∀ c ∈ (Nat.toDigits 16 (BInt.ival b).toNat).map g, c ≠ 'x' ∧ c ≠ '+' := by
      intro g hg c hc
      have := (BInt.numeral_toDigits 16 (by norm_num) g hg (BInt.ival b).toNat).2 c hc
      constructor
      · rintro rfl
        exact absurd this (by decide)
      · rintro rfl
        exact absurd this (by decide)
    have hne : Nat.toDigits 16 (BInt.ival b).toNat ≠ [] := Nat.toDigits_ne_nil
    refine ⟨stdInt_plain o _, ?_, ?_⟩
    · have := hlow id (by decide)
      rw [List.map_id] at this
      exact stdInt_hex o _ hne (fun h => (this _ h).1 rfl) (fun h => (this _ h).2 rfl)
    · have := hlow Char.toUpper (by decide)
      have h2 := stdInt_hex o ((Nat.toDigits 16 (BInt.ival b).toNat).map Char.toUpper)
        (by simpa using hne) (fun h => (this _ h).1 rfl) (fun h => (this _ h).2 rfl)
      rw [List.length_map] at h2
      exact h2

/-- The hypotheses are met by 255, and the options `{:#4x}` are honoured for it, `{:#5x}` are not. -/
example : BInt.Canon ⟨false, .inline 255⟩ ∧
    Fmt.text (BInt.fmtLowerHex .debug 65 ⟨false, .inline 255⟩) { alternate := true, width := some 4 } =
      .ok (stdInt { alternate := true, width := some 4 } true ['0', 'x'] ['f', 'f']) ∧
    Fmt.text (BInt.fmtLowerHex .debug 65 ⟨false, .inline 255⟩) { alternate := true, width := some 5 } ≠
      .ok (stdInt { alternate := true, width := some 5 } true ['0', 'x'] ['f', 'f']) :=
by
  have h := fun o => C175_ignored_partial .debug 65 [] ⟨false, .inline 255⟩ o Prim.i32 0 0 ⟨0, 1⟩
  refine ⟨by decide, ?_, ?_⟩
  · rw [(h _).2.2.2.2.2.1]
    decide +kernel
  · rw [(h _).2.2.2.2.2.1]
    decide +kernel

/-! ## C177 -/

theorem numbersIn_digits (ds : List Char) (hd : ∀ c ∈ ds, IsDigit 10 c) (n : Nat) (rest : List Char)
    (hr : ∀ c ∈ rest.head?, ¬ ('0' ≤ c ∧ c ≤ '9')) :
    numbersIn (some n) (ds ++ rest) =
      ds.foldl (fun n c => n * 10 + (digitValue c).getD 0) n :: numbersIn none rest := by
  induction ds generalizing n with
  | nil =>
    cases rest with
    | nil => rfl
    | cons c cs =>
      have := hr c rfl
      simp only [List.nil_append, List.foldl_nil, numbersIn, if_neg this, Option.toList,
        List.cons_append, List.nil_append]
  | cons c cs ih =>
    obtain ⟨d, h1, h2⟩ := hd c (by simp)
    have hc : '0' ≤ c ∧ c ≤ '9' := by
      by_contra h
      unfold digitValue at h1
      rw [if_neg h] at h1
      split at h1
      · simp only [Option.some.injEq] at h1; omega
      · split at h1
        · simp only [Option.some.injEq] at h1; omega
        · cases h1
    have hv : (digitValue c).getD 0 = c.toNat - '0'.toNat := by
      unfold digitValue; rw [if_pos hc]; rfl
    rw [List.cons_append, numbersIn, if_pos hc, ih (fun x hx => hd x (by simp [hx])), List.foldl_cons, hv]
    rfl

theorem numbersIn_nat (n : Nat) (rest : List Char) (hr : ∀ c ∈ rest.head?, ¬ ('0' ≤ c ∧ c ≤ '9')) :
    numbersIn none (Nat.toDigits 10 n ++ rest) = n :: numbersIn none rest := by
  have hd := digits_isDigit n
  have hn := digits_numeral n
  obtain ⟨c, cs, hc⟩ := List.exists_cons_of_ne_nil (Nat.toDigits_ne_nil (n := n) (b := 10))
  rw [hc] at hd hn ⊢
  have h0 : numbersIn none (c :: cs ++ rest) = numbersIn (some 0) (c :: cs ++ rest) := by
    obtain ⟨d, h1, h2⟩ := hd c (by simp)
    have hc : '0' ≤ c ∧ c ≤ '9' := by
      by_contra h
      unfold digitValue at h1
      rw [if_neg h] at h1
      split at h1
      · simp only [Option.some.injEq] at h1; omega
      · split at h1
        · simp only [Option.some.injEq] at h1; omega
        · cases h1
    rw [List.cons_append, numbersIn, if_pos hc, numbersIn, if_pos hc]
    rfl
  rw [h0, numbersIn_digits _ hd 0 rest hr]
  congr 1

theorem numbersIn_elems (a : Bytes) : ∃ t, Writes (IN.fmtElems a) (.ok t) ∧
    ∀ rest, (∀ c ∈ rest.head?, ¬ ('0' ≤ c ∧ c ≤ '9')) →
      numbersIn none (t ++ rest) = a.map BitVec.toNat ++ numbersIn none rest := by
  have hprim : ∀ x : BitVec 8, RatM.intText (x.toNat : Int) = Nat.toDigits 10 x.toNat := by
    intro x
    unfold RatM.intText
    rw [if_neg (by omega)]
    rfl
  induction a with
  | nil => exact ⟨_, Writes.done, fun rest _ => rfl⟩
  | cons x xs ih =>
    cases xs with
    | nil =>
      refine ⟨_, Writes.prim _, fun rest hr => ?_⟩
      rw [hprim, numbersIn_nat _ _ hr]
      rfl
    | cons y ys =>
      obtain ⟨t, ht, h2⟩ := ih
      refine ⟨_, Writes.seq_ok (Writes.prim _) (Writes.seq_ok (Writes.write _) ht), fun rest hr => ?_⟩
      rw [hprim, List.append_assoc, numbersIn_nat _ _ (by
        intro c hc
        simp at hc
        subst hc
        decide)]
      have e : [',', ' '] ++ t ++ rest = ',' :: ' ' :: (t ++ rest) := rfl
      rw [e, numbersIn, if_neg (by decide), numbersIn, if_neg (by decide)]
      simp only [Option.toList, List.nil_append]
      rw [h2 rest hr]
      rfl

/-- C177: the numbers in the debug text of an `I<N>` are its bytes, the least significant first; so the text
tells the number, and equal texts mean equal numbers. -/
theorem C177_tells (a b : Bytes) :
    ∃ s t, Fmt.text (IN.fmtDebug a) {} = .ok s ∧ Fmt.text (IN.fmtDebug b) {} = .ok t ∧
      numbersIn none s = a.map BitVec.toNat ∧
      Nat.ofDigits 256 (numbersIn none s) = val a ∧
      (s = t ↔ a = b) := by
  have key : ∀ a : Bytes, ∃ s, Fmt.text (IN.fmtDebug a) {} = .ok s ∧
      numbersIn none s = a.map BitVec.toNat := by
    intro a
    obtain ⟨t, ht, h2⟩ := numbersIn_elems a
    have hw := Writes.seq_ok (Writes.write ['I']) (Writes.seq_ok (Writes.write ['('])
      (Writes.seq_ok (Writes.write ['[']) (Writes.seq_ok ht
        (Writes.seq_ok (Writes.write [']']) (Writes.write [')'])))))
    refine ⟨_, hw.text {}, ?_⟩
    have e : ['I'] ++ (['('] ++ (['['] ++ (t ++ ([']'] ++ [')'])))) =
        'I' :: '(' :: '[' :: (t ++ [']', ')']) := rfl
    rw [e, numbersIn, if_neg (by decide), numbersIn, if_neg (by decide), numbersIn, if_neg (by decide)]
    simp only [Option.toList, List.nil_append]
    rw [h2 _ (by intro c hc; simp at hc; subst hc; decide)]
    have : numbersIn none [']', ')'] = [] := by decide
    rw [this, List.append_nil]
  obtain ⟨s, hs, hs2⟩ := key a
  obtain ⟨t, ht, ht2⟩ := key b
  refine ⟨s, t, hs, ht, hs2, ?_, ?_⟩
  · rw [hs2]
    clear hs hs2 ht ht2
    induction a with
    | nil => rfl
    | cons x xs ih => rw [List.map_cons, Nat.ofDigits_cons, ih]; simp [val]
  · constructor
    · intro h
      rw [h, ht2] at hs2
      have hinj : Function.Injective (BitVec.toNat (w := 8)) := fun x y h => BitVec.eq_of_toNat_eq h
      exact (List.map_injective_iff.mpr hinj hs2).symm
    · rintro rfl
      rw [hs] at ht
      exact Res.ok.inj ht

/-- `I<2>` -2 prints as `I([254, 255])`. -/
example : Fmt.text (IN.fmtDebug [254#8, 255#8]) {} =
    .ok ['I', '(', '[', '2', '5', '4', ',', ' ', '2', '5', '5', ']', ')'] := by decide +kernel

end Verif
