import Verif.Model.FmtDebug
import Verif.Props.Fmt

/-!
# Lemmas on derived `Debug` texts
-/

namespace Verif

open Fmt

/-! ## Writing a list of strings -/

theorem Writes.all (ps : List (List Char)) : Writes (writeAll ps) (.ok ps.flatten) := by
  induction ps with
  | nil => exact Writes.done
  | cons p ps ih => exact Writes.seq_ok (Writes.write p) ih

/-! ## Indentation, character by character -/

/-- Four spaces before every line. -/
def ind : Bool → List Char → List Char
  | _, [] => []
  | nl, c :: cs => (if nl then List.replicate 4 ' ' else []) ++ c :: ind (decide (c = '\n')) cs

/-- A character in front of the first line. -/
def consLine (c : Char) : List (List Char) → List (List Char)
  | [] => [[c]]
  | l :: ls => (c :: l) :: ls

theorem lines_cons (c : Char) (cs : List Char) :
    lines (c :: cs) = if c = '\n' then [c] :: lines cs else consLine c (lines cs) := by
  rw [lines]
  split
  · rfl
  · unfold consLine
    rfl

theorem lines_ne_nil (s : List Char) : [] ∉ lines s := by
  induction s with
  | nil => simp [lines]
  | cons c cs ih =>
    rw [lines_cons]
    split
    · simpa using ih
    · cases h : lines cs with
      | nil => simp [consLine]
      | cons l ls => rw [h] at ih; simp at ih; simp [consLine, ih.2]

theorem lines_eq_nil {s : List Char} (h : lines s = []) : s = [] := by
  cases s with
  | nil => rfl
  | cons c cs =>
    rw [lines_cons] at h
    split at h
    · cases h
    · cases hl : lines cs <;> rw [hl] at h <;> cases h

/-- After the lines of `s`, the next string starts a line exactly if `s` ends one. -/
theorem indentLines_lines (s : List Char) (nl : Bool) (rest : List (List Char)) :
    ∃ nl', (indentLines nl (lines s ++ rest)).flatten = ind nl s ++ (indentLines nl' rest).flatten ∧
      ∀ t, ind nl (s ++ t) = ind nl s ++ ind nl' t := by
  induction s generalizing nl with
  | nil => exact ⟨nl, by simp [lines, ind], by simp [ind]⟩
  | cons c cs ih =>
    rw [lines_cons]
    split
    · rename_i hc
      obtain ⟨nl', h1, h2⟩ := ih true
      refine ⟨nl', ?_, ?_⟩
      · rw [List.cons_append, indentLines]
        have : decide ([c].getLast? = some '\n') = true := by simp [hc]
        rw [this, List.flatten_append, List.flatten_cons, h1, ind]
        cases nl <;> simp [hc]
      · intro t
        rw [List.cons_append, ind, ind]
        have : decide (c = '\n') = true := by simp [hc]
        rw [this, h2]
        simp
    · rename_i hc
      obtain ⟨nl', h1, h2⟩ := ih false
      refine ⟨nl', ?_, ?_⟩
      · have hd : decide (c = '\n') = false := by simp [hc]
        rw [ind, hd]
        cases hl : lines cs with
        | nil =>
          have e := lines_eq_nil hl
          subst e
          have h3 := h2 []
          rw [hl] at h1
          simp only [consLine, List.cons_append, List.nil_append, indentLines]
          have : decide ([c].getLast? = some '\n') = false := by simp [hc]
          rw [this]
          simp only [List.nil_append] at h1
          cases nl <;> simp [h1]
        | cons l ls =>
          rw [hl] at h1
          have hne : l ≠ [] := by
            have := lines_ne_nil cs
            rw [hl] at this
            simp at this
            exact this.1
          simp only [consLine, List.cons_append, indentLines] at h1 ⊢
          have : (c :: l).getLast? = l.getLast? := by
            obtain ⟨x, xs, rfl⟩ := List.exists_cons_of_ne_nil hne
            simp [List.getLast?_cons_cons]
          rw [this]
          simp only [Bool.false_eq_true, if_false, List.nil_append, List.flatten_cons, List.append_assoc] at h1
          cases nl <;> simp [h1]
      · intro t
        rw [List.cons_append, ind, ind]
        have : decide (c = '\n') = false := by simp [hc]
        rw [this, h2]
        simp

theorem indentLines_flatten (ps : List (List Char)) (nl : Bool) :
    (indentLines nl (ps.flatMap lines)).flatten = ind nl ps.flatten := by
  induction ps generalizing nl with
  | nil => rfl
  | cons p ps ih =>
    obtain ⟨nl', h1, h2⟩ := indentLines_lines p nl (ps.flatMap lines)
    rw [List.flatMap_cons, h1, ih, List.flatten_cons, h2]

/-- The text behind `PadAdapter`. -/
theorem indent_flatten (ps : List (List Char)) : (indent ps).flatten = ind true ps.flatten :=
  indentLines_flatten ps true

/-- Text without line breaks is indented as a whole. -/
theorem ind_false_append (s t : List Char) (hs : '\n' ∉ s) : ind false (s ++ t) = s ++ ind false t := by
  induction s with
  | nil => rfl
  | cons c cs ih =>
    simp only [List.mem_cons, not_or] at hs
    have : decide (c = '\n') = false := by simp [Ne.symm hs.1]
    rw [List.cons_append, ind, this, ih hs.2]
    simp

theorem ind_true_append (s t : List Char) (h0 : s ≠ []) (hs : '\n' ∉ s) :
    ind true (s ++ t) = List.replicate 4 ' ' ++ s ++ ind false t := by
  obtain ⟨c, cs, rfl⟩ := List.exists_cons_of_ne_nil h0
  simp only [List.mem_cons, not_or] at hs
  have : decide (c = '\n') = false := by simp [Ne.symm hs.1]
  rw [List.cons_append, ind, this, ind_false_append cs t hs.2]
  simp

/-! ## Integers -/

theorem intPieces_flatten (o : FmtOpts) (z : Int) : (intPieces o z).flatten = stdDecimal o z := by
  have hrep : ∀ (n : Nat) (c : Char), (List.replicate n [c]).flatten = List.replicate n c := by
    intro n c
    induction n with
    | zero => rfl
    | succ n ih => rw [List.replicate_succ, List.flatten_cons, ih, List.replicate_succ]; rfl
  unfold intPieces stdDecimal stdInt
  by_cases hz : z < 0
  · have h0 : decide (0 ≤ z) = false := by simp [hz]
    rw [h0]
    cases o.plus <;> cases o.alternate <;> cases o.zero <;> rcases o.align with _ | _ | _ | _ <;>
      simp [hz, hrep]
  · have h0 : decide (0 ≤ z) = true := by simp; omega
    rw [h0]
    cases o.plus <;> cases o.alternate <;> cases o.zero <;> rcases o.align with _ | _ | _ | _ <;>
      simp [hz, hrep]

/-! ## Reading the integers of a text -/

/-- `t` is read as `l`, if no digit follows. -/
def ReadsInts (t : List Char) (l : List Int) : Prop :=
  ∀ rest, (∀ c ∈ rest.head?, ¬ ('0' ≤ c ∧ c ≤ '9')) →
    integersIn false none (t ++ rest) = l ++ integersIn false none rest

/-- `t` is read as `l`, whatever follows. -/
def ShowsInts (t : List Char) (l : List Int) : Prop :=
  ∀ rest, integersIn false none (t ++ rest) = l ++ integersIn false none rest

/-- A character that is no part of a number. -/
def Plain (c : Char) : Prop := ¬ ('0' ≤ c ∧ c ≤ '9') ∧ c ≠ '-'

instance (c : Char) : Decidable (Plain c) := inferInstanceAs (Decidable (_ ∧ _))

theorem ShowsInts.plain (t : List Char) (h : ∀ c ∈ t, Plain c) : ShowsInts t [] := by
  intro rest
  induction t with
  | nil => rfl
  | cons c cs ih =>
    have hc := h c (by simp)
    rw [List.cons_append, integersIn, if_neg hc.1]
    have : decide (c = '-') = false := by simp [hc.2]
    rw [this]
    simpa using ih fun x hx => h x (by simp [hx])

theorem ShowsInts.append {s t : List Char} {l m : List Int} (hs : ShowsInts s l) (ht : ShowsInts t m) :
    ShowsInts (s ++ t) (l ++ m) := by
  intro rest
  rw [List.append_assoc, hs, ht, List.append_assoc]

theorem ShowsInts.reads {t : List Char} {l : List Int} (h : ShowsInts t l) : ReadsInts t l := fun rest _ => h rest

/-- A plain text closes what is before it. -/
theorem ReadsInts.close {t s : List Char} {l : List Int} (h : ReadsInts t l) (h0 : s ≠ [])
    (hs : ∀ c ∈ s, Plain c) : ShowsInts (t ++ s) l := by
  intro rest
  have h1 : ∀ c ∈ (s ++ rest).head?, ¬ ('0' ≤ c ∧ c ≤ '9') := by
    obtain ⟨x, xs, rfl⟩ := List.exists_cons_of_ne_nil h0
    intro c hc
    simp at hc
    subst hc
    exact (hs x (by simp)).1
  rw [List.append_assoc, h _ h1, ShowsInts.plain s hs]
  rfl

theorem ShowsInts.then_reads {s t : List Char} {l m : List Int} (hs : ShowsInts s l) (ht : ReadsInts t m) :
    ReadsInts (s ++ t) (l ++ m) := by
  intro rest hr
  rw [List.append_assoc, hs, ht rest hr, List.append_assoc]

theorem integersIn_ind (t : List Char) (nl neg : Bool) (acc : Option Nat) (rest : List Char)
    (h : nl = true → neg = false ∧ acc = none) :
    integersIn neg acc (ind nl t ++ rest) = integersIn neg acc (t ++ rest) := by
  induction t generalizing nl neg acc with
  | nil => rfl
  | cons c cs ih =>
    have key : integersIn neg acc (c :: (ind (decide (c = '\n')) cs ++ rest)) =
        integersIn neg acc (c :: (cs ++ rest)) := by
      rw [integersIn, integersIn]
      split
      · rename_i hc
        refine ih _ _ _ fun hn => ?_
        exfalso
        have : c = '\n' := by simpa using hn
        subst this
        exact absurd hc (by decide)
      · rw [ih]
        intro hn
        have : c = '\n' := by simpa using hn
        subst this
        exact ⟨by decide, rfl⟩
    rw [ind]
    cases nl with
    | false => simpa using key
    | true =>
      obtain ⟨rfl, rfl⟩ := h rfl
      have hsp : ShowsInts (List.replicate 4 ' ') [] := ShowsInts.plain _ (by decide)
      simp only [if_true, List.append_assoc, List.cons_append]
      rw [hsp]
      simpa using key

/-- Indentation does not change what is read. -/
theorem ShowsInts.ind {t : List Char} {l : List Int} (h : ShowsInts t l) : ShowsInts (ind true t) l := by
  intro rest
  rw [integersIn_ind _ _ _ _ _ (fun _ => ⟨rfl, rfl⟩), h]

theorem integersIn_digits (ds : List Char) (hd : ∀ c ∈ ds, IsDigit 10 c) (neg : Bool) (n : Nat)
    (rest : List Char) (hr : ∀ c ∈ rest.head?, ¬ ('0' ≤ c ∧ c ≤ '9')) :
    integersIn neg (some n) (ds ++ rest) =
      (let v := ds.foldl (fun n c => n * 10 + (digitValue c).getD 0) n
       if neg then -(v : Int) else v) :: integersIn false none rest := by
  induction ds generalizing n with
  | nil =>
    cases rest with
    | nil => rfl
    | cons c cs =>
      have := hr c rfl
      simp only [List.nil_append, List.foldl_nil, integersIn, if_neg this, Option.toList,
        List.cons_append, List.nil_append, List.map_cons, List.map_nil]
  | cons c cs ih =>
    obtain ⟨d, h1, h2⟩ := hd c (by simp)
    have hc : '0' ≤ c ∧ c ≤ '9' := by
      by_contra h
      unfold digitValue at h1
      rw [if_neg h] at h1
      split at h1
      · simp only [Option.some.injEq] at h1; omega
      · split at h1
        · simp only [Option.some.injEq] at h1; omega
        · cases h1
    have hv : (digitValue c).getD 0 = c.toNat - '0'.toNat := by
      unfold digitValue; rw [if_pos hc]; rfl
    rw [List.cons_append, integersIn, if_pos hc, ih (fun x hx => hd x (by simp [hx])), List.foldl_cons, hv]
    rfl

/-- Digits, after padding zeros, with the sign before. -/
theorem integersIn_nat (k n : Nat) (neg : Bool) (rest : List Char)
    (hr : ∀ c ∈ rest.head?, ¬ ('0' ≤ c ∧ c ≤ '9')) :
    integersIn neg none (List.replicate k '0' ++ Nat.toDigits 10 n ++ rest) =
      (if neg then -(n : Int) else n) :: integersIn false none rest := by
  have hd : ∀ c ∈ List.replicate k '0' ++ Nat.toDigits 10 n, IsDigit 10 c := by
    intro c hc
    rcases List.mem_append.mp hc with h | h
    · rw [(List.mem_replicate.mp h).2]
      exact ⟨0, by decide, by decide⟩
    · exact digits_isDigit n c h
  have hn : (List.replicate k '0' ++ Nat.toDigits 10 n).foldl
      (fun n c => n * 10 + (digitValue c).getD 0) 0 = n := by
    rw [List.foldl_append]
    have h0 : (List.replicate k '0').foldl (fun n c => n * 10 + (digitValue c).getD 0) 0 = 0 := by
      induction k with
      | zero => rfl
      | succ k ih =>
        rw [List.replicate_succ, List.foldl_cons]
        have : 0 * 10 + (digitValue '0').getD 0 = 0 := by decide
        rw [this]
        exact ih (fun c hc => by
          rcases List.mem_append.mp hc with h | h
          · rw [(List.mem_replicate.mp h).2]
            exact ⟨0, by decide, by decide⟩
          · exact digits_isDigit n c h)
    rw [h0]
    exact digits_numeral n
  have hne : List.replicate k '0' ++ Nat.toDigits 10 n ≠ [] := by
    simp [Nat.toDigits_ne_nil]
  generalize List.replicate k '0' ++ Nat.toDigits 10 n = ds at hd hn hne
  obtain ⟨c, cs, rfl⟩ := List.exists_cons_of_ne_nil hne
  have h0 : integersIn neg none (c :: cs ++ rest) = integersIn neg (some 0) (c :: cs ++ rest) := by
    obtain ⟨d, h1, h2⟩ := hd c (by simp)
    have hc : '0' ≤ c ∧ c ≤ '9' := by
      by_contra h
      unfold digitValue at h1
      rw [if_neg h] at h1
      split at h1
      · simp only [Option.some.injEq] at h1; omega
      · split at h1
        · simp only [Option.some.injEq] at h1; omega
        · cases h1
    rw [List.cons_append, integersIn, if_pos hc, integersIn, if_pos hc]
    rfl
  rw [h0, integersIn_digits _ hd neg 0 rest hr, hn]

/-- The text of an integer is read as the integer, if it is padded with characters that are no part of numbers. -/
theorem stdDecimal_reads (o : FmtOpts) (hf : Plain o.fill) (z : Int) : ReadsInts (stdDecimal o z) [z] := by
  have hsign : ∀ (k : Nat) (rest : List Char), (∀ c ∈ rest.head?, ¬ ('0' ≤ c ∧ c ≤ '9')) →
      integersIn false none ((if decide (0 ≤ z) then (if o.plus then ['+'] else []) else ['-']) ++
        (List.replicate k '0' ++ Nat.toDigits 10 z.natAbs ++ rest)) = z :: integersIn false none rest := by
    intro k rest hr
    by_cases hz : 0 ≤ z
    · have e : ((z.natAbs : Nat) : Int) = z := by omega
      rw [if_pos (by simpa using hz)]
      cases o.plus with
      | true =>
        have hp : ShowsInts ['+'] [] := ShowsInts.plain _ (by decide)
        rw [if_pos rfl, hp, integersIn_nat _ _ _ _ hr]
        simp [e]
      | false =>
        rw [if_neg (by simp), List.nil_append, integersIn_nat _ _ _ _ hr]
        simp [e]
    · have e : -((z.natAbs : Nat) : Int) = z := by omega
      rw [if_neg (by simpa using hz), List.cons_append, List.nil_append, integersIn, if_neg (by decide)]
      have : decide ('-' = '-') = true := by decide
      rw [this, integersIn_nat _ _ _ _ hr, if_pos rfl, e]
      rfl
  intro rest hr
  unfold stdDecimal stdInt
  have hpre : (if o.alternate then ([] : List Char) else []) = [] := by split <;> rfl
  simp only [hpre, List.append_nil]
  generalize o.width.getD 0 - ((if decide (0 ≤ z) then (if o.plus then ['+'] else []) else ['-']).length
    + (Nat.toDigits 10 z.natAbs).length) = pad
  cases o.zero with
  | true =>
    have := hsign pad rest hr
    rw [if_pos rfl]
    simpa only [List.append_assoc, List.cons_append, List.nil_append] using this
  | false =>
    rw [if_neg (by simp)]
    have hrep : ∀ k, ShowsInts (List.replicate k o.fill) [] := by
      intro k
      refine ShowsInts.plain _ fun c hc => ?_
      rw [(List.mem_replicate.mp hc).2]
      exact hf
    have hr2 : ∀ k, ∀ c ∈ (List.replicate k o.fill ++ rest).head?, ¬ ('0' ≤ c ∧ c ≤ '9') := by
      intro k
      cases k with
      | zero => simpa using hr
      | succ k =>
        intro c hc
        simp [List.replicate_succ] at hc
        subst hc
        exact hf.1
    have hs := fun k => hsign 0 _ (hr2 k)
    simp only [List.replicate_zero, List.nil_append] at hs
    simp only [List.append_assoc]
    rw [hrep, hs, hrep]
    rfl

/-! ## The builders -/

theorem moreEntries_shows (xs : List (List (List Char) × List Int))
    (h : ∀ x ∈ xs, ReadsInts x.1.flatten x.2) :
    ShowsInts ((moreEntries (xs.map Prod.fst)).flatten ++ [']']) (xs.flatMap Prod.snd) := by
  induction xs with
  | nil => exact ShowsInts.plain _ (by decide)
  | cons x xs ih =>
    have hx := h x (by simp)
    have hi := ih fun y hy => h y (by simp [hy])
    intro rest
    have hsep : ShowsInts [',', ' '] [] := ShowsInts.plain _ (by decide)
    have e : (moreEntries ((x :: xs).map Prod.fst)).flatten ++ [']'] ++ rest =
        [',', ' '] ++ (x.1.flatten ++ ((moreEntries (xs.map Prod.fst)).flatten ++ [']'] ++ rest)) := by
      simp [moreEntries]
    rw [e, hsep, hx, hi]
    · simp
    · intro c hc
      cases xs with
      | nil => simp [moreEntries] at hc; subst hc; decide
      | cons y ys => simp [moreEntries] at hc; subst hc; decide

/-- A list shows what its entries show. -/
theorem listPieces_shows (o : FmtOpts) (xs : List (List (List Char) × List Int))
    (h : ∀ x ∈ xs, ReadsInts x.1.flatten x.2) :
    ShowsInts (listPieces o (xs.map Prod.fst)).flatten (xs.flatMap Prod.snd) := by
  have hopen : ShowsInts ['['] [] := ShowsInts.plain _ (by decide)
  have hclose : ShowsInts [']'] [] := ShowsInts.plain _ (by decide)
  cases xs with
  | nil => exact ShowsInts.plain ['[', ']'] (by decide)
  | cons x xs =>
    unfold listPieces
    cases o.alternate with
    | false =>
      intro rest
      have hm := moreEntries_shows xs fun y hy => h y (by simp [hy])
      have e : ([['[']] ++ (x.1 ++ moreEntries (xs.map Prod.fst)) ++ [[']']]).flatten ++ rest
          = ['['] ++ (x.1.flatten ++ ((moreEntries (xs.map Prod.fst)).flatten ++ [']'] ++ rest)) := by
        simp
      simp only [List.map_cons, Bool.false_eq_true, if_false]
      rw [e, hopen, h x (by simp), hm]
      · simp
      · intro c hc
        cases xs with
        | nil => simp [moreEntries] at hc; subst hc; decide
        | cons y ys => simp [moreEntries] at hc; subst hc; decide
    | true =>
      have hnl : ShowsInts ['\n'] [] := ShowsInts.plain _ (by decide)
      have hall : ∀ ys : List (List (List Char) × List Int), (∀ x ∈ ys, ReadsInts x.1.flatten x.2) →
          ShowsInts ((ys.map Prod.fst).flatMap fun y => indent (y ++ [[',', '\n']])).flatten
            (ys.flatMap Prod.snd) := by
        intro ys hys
        induction ys with
        | nil => exact ShowsInts.plain _ (by simp)
        | cons y ys ih =>
          have h1 := (hys y (by simp)).close (s := [',', '\n']) (by simp) (by decide)
          have h2 := h1.ind.append (ih fun z hz => hys z (by simp [hz]))
          rw [List.map_cons, List.flatMap_cons, List.flatten_append, indent_flatten]
          simpa using h2
      have := hopen.append (hnl.append ((hall (x :: xs) h).append hclose))
      simpa using this

theorem tuplePieces_shows (o : FmtOpts) (name : List Char) (hn : ∀ c ∈ name, Plain c)
    (x : List (List Char)) (l : List Int) (h : ShowsInts x.flatten l) :
    ShowsInts (tuplePieces o name x).flatten l := by
  have h0 := ShowsInts.plain name hn
  have hclose : ShowsInts [')'] [] := ShowsInts.plain _ (by decide)
  unfold tuplePieces
  cases o.alternate with
  | false =>
    have hopen : ShowsInts ['('] [] := ShowsInts.plain _ (by decide)
    have := h0.append (hopen.append (h.append hclose))
    simpa using this
  | true =>
    have hopen : ShowsInts ['(', '\n'] [] := ShowsInts.plain _ (by decide)
    have h1 := h.reads.close (s := [',', '\n']) (by simp) (by decide)
    have := h0.append (hopen.append (h1.ind.append hclose))
    simpa [indent_flatten] using this

/-- A field, up to what separates it from the next or from the end. -/
theorem structPieces_shows (o : FmtOpts) (name n : List Char) (hn : ∀ c ∈ name, Plain c)
    (hn1 : ∀ c ∈ n, Plain c) (x : List (List Char)) (l : List Int) (h : ReadsInts x.flatten l)
    (fs : List (List Char × List (List Char) × List Int))
    (hf : ∀ f ∈ fs, (∀ c ∈ f.1, Plain c) ∧ ReadsInts f.2.1.flatten f.2.2) :
    ShowsInts (structPieces o name n x (fs.map fun f => (f.1, f.2.1))).flatten
      (l ++ fs.flatMap fun f => f.2.2) := by
  have h0 := ShowsInts.plain name hn
  have hcol : ShowsInts [':', ' '] [] := ShowsInts.plain _ (by decide)
  cases ha : o.alternate with
  | true =>
    have hopen : ShowsInts [' ', '{', '\n'] [] := ShowsInts.plain _ (by decide)
    have hclose : ShowsInts ['}'] [] := ShowsInts.plain _ (by decide)
    have hfield : ∀ (n : List Char) (x : List (List Char)) (l : List Int), (∀ c ∈ n, Plain c) →
        ReadsInts x.flatten l → ShowsInts (indent ([n, [':', ' ']] ++ x ++ [[',', '\n']])).flatten l := by
      intro n x l h1 h2
      rw [indent_flatten]
      have h3 := ((ShowsInts.plain n h1).append (hcol.append
        (h2.close (s := [',', '\n']) (by simp) (by decide)))).ind
      simpa using h3
    have hmore : ShowsInts (moreFields o (fs.map fun f => (f.1, f.2.1))).flatten (fs.flatMap fun f => f.2.2) := by
      induction fs with
      | nil => exact ShowsInts.plain _ (by simp [moreFields])
      | cons f fs ih =>
        have h1 := hfield f.1 f.2.1 f.2.2 (hf f (by simp)).1 (hf f (by simp)).2
        have h2 := h1.append (ih fun g hg => hf g (by simp [hg]))
        rw [List.map_cons, moreFields, if_pos ha, List.flatten_append]
        exact h2
    have := h0.append (hopen.append ((hfield n x l hn1 h).append (hmore.append hclose)))
    unfold structPieces
    rw [ha]
    simpa using this
  | false =>
    have hopen : ShowsInts [' ', '{', ' '] [] := ShowsInts.plain _ (by decide)
    have hsep : ShowsInts [',', ' '] [] := ShowsInts.plain _ (by decide)
    have hhead : ∀ rest : List Char,
        ∀ c ∈ ((moreFields o (fs.map fun f => (f.1, f.2.1))).flatten ++ [' ', '}'] ++ rest).head?,
          ¬ ('0' ≤ c ∧ c ≤ '9') := by
      intro rest c hc
      cases fs with
      | nil => simp [moreFields] at hc; subst hc; decide
      | cons f fs => simp [moreFields, ha] at hc; subst hc; decide
    have hmore : ShowsInts ((moreFields o (fs.map fun f => (f.1, f.2.1))).flatten ++ [' ', '}'])
        (fs.flatMap fun f => f.2.2) := by
      clear hhead
      induction fs with
      | nil => exact ShowsInts.plain [' ', '}'] (by decide)
      | cons f fs ih =>
        have ih := ih fun g hg => hf g (by simp [hg])
        intro rest
        have e : (moreFields o ((f :: fs).map fun f => (f.1, f.2.1))).flatten ++ [' ', '}'] ++ rest =
            [',', ' '] ++ (f.1 ++ ([':', ' '] ++ (f.2.1.flatten ++
              ((moreFields o (fs.map fun f => (f.1, f.2.1))).flatten ++ [' ', '}'] ++ rest)))) := by
          rw [List.map_cons, moreFields, ha]
          simp
        rw [e, hsep, ShowsInts.plain _ (hf f (by simp)).1, hcol, (hf f (by simp)).2, ih]
        · simp
        · intro c hc
          cases fs with
          | nil => simp [moreFields] at hc; subst hc; decide
          | cons g gs => simp [moreFields, ha] at hc; subst hc; decide
    intro rest
    have e : (structPieces o name n x (fs.map fun f => (f.1, f.2.1))).flatten ++ rest =
        name ++ ([' ', '{', ' '] ++ (n ++ ([':', ' '] ++ (x.flatten ++
          ((moreFields o (fs.map fun f => (f.1, f.2.1))).flatten ++ [' ', '}'] ++ rest))))) := by
      unfold structPieces
      rw [ha]
      simp
    rw [e, h0, hopen, ShowsInts.plain n hn1, hcol, h _ (hhead rest), hmore]
    simp

end Verif
