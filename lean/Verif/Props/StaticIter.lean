import Verif.Lemmas.StaticIter

/-!
# C85, C86, C91: static iterators

A pipeline (`Pipe`) is any composition of the adapters over arrays, references, ranges and iterators
of the user; `W` is the state shared by its closures. A result `some _` says in particular that no
undefined behaviour occurred: no slot was read twice or out of bounds.
-/

namespace Verif

open StaticIter

/-! ## C85: pipelines -/

/-- C85: collecting a pipeline of length `N` into an array computes its elements for the indices
`0, 1, …, N - 1`, once each and in this order, closures and their effects included. -/
theorem C85_collect {W α : Type} (N : Nat) (p : Pipe W α) (h : p.Sized N) (w : W) :
    ∃ l w', collectArray N p.iter w = some (l, w') ∧ l.length = N ∧
      runAll p.elem (List.range N) w = some (l, w') := by
  obtain ⟨l, w', e, hl⟩ := runAll_total (elem_total N p h) (List.range N)
    (fun i hi => List.mem_range.mp hi) w
  exact ⟨l, w', by rw [collectArray_spec h, e], by rw [hl, List.length_range], e⟩

theorem runAll_unit {α : Type} (act : Nat → Unit → Option (α × Unit)) (is : List Nat)
    (l : List α) (h : runAll act is () = some (l, ())) (k i : Nat) (hi : is[k]? = some i) :
    l[k]? = (act i ()).map (·.1) := by
  induction is generalizing k l with
  | nil => simp at hi
  | cons j is ih =>
    unfold runAll at h
    cases ha : act j () with
    | none => rw [ha] at h; simp at h
    | some r =>
      rw [ha, Option.bind_some] at h
      cases hr : runAll act is r.2 with
      | none => rw [hr] at h; simp at h
      | some t =>
        rw [hr] at h
        simp only [Option.map_some, Option.some.injEq, Prod.mk.injEq, and_true] at h
        subst h
        cases k with
        | zero =>
          simp only [List.getElem?_cons_zero, Option.some.injEq] at hi
          subst hi
          rw [ha]; rfl
        | succ k =>
          simp only [List.getElem?_cons_succ] at hi ⊢
          exact ih t.1 hr k hi

/-- C85: for closures without effects, the `i`-th element of the array is the pipeline's function of
the `i`-th elements of the sources. -/
theorem C85_pointwise {α : Type} (N : Nat) (p : Pipe Unit α) (h : p.Sized N) :
    ∃ l, collectArray N p.iter () = some (l, ()) ∧ l.length = N ∧
      ∀ i, i < N → l[i]? = (p.elem i ()).map (·.1) := by
  obtain ⟨l, w', e, hl, er⟩ := C85_collect N p h ()
  refine ⟨l, e, hl, fun i hi => ?_⟩
  exact runAll_unit p.elem (List.range N) l er i i (by simp [hi])

example := C85_pointwise 3 (Pipe.map (.array [1, 2, 3]) fun x (w : Unit) => (x * x, w))
  (by simp [Pipe.Sized])

/-- C85: `zip` and `map` of two arrays is the list function. -/
theorem C85_zip_map {α β γ : Type} (a : List α) (b : List β) (hab : a.length = b.length)
    (f : α → β → γ) :
    collectArray a.length
      (Pipe.map (.zip (.array a) (.array b)) fun x w => (f x.1 x.2, w)).iter () =
      some (List.zipWith f a b, ()) := by
  obtain ⟨l, e, hl, hi⟩ := C85_pointwise a.length
    (Pipe.map (.zip (.array a) (.array b)) fun x w => (f x.1 x.2, w)) ⟨rfl, hab.symm⟩
  rw [e]
  congr 2
  apply List.ext_getElem?
  intro i
  by_cases h : i < a.length
  · rw [hi i h]
    simp [Pipe.elem, List.getElem?_zipWith, List.getElem?_eq_getElem h,
      List.getElem?_eq_getElem (hab ▸ h)]
  · rw [List.getElem?_eq_none (by omega), List.getElem?_eq_none (by simp; omega)]

example := C85_zip_map [1, 2, 3] [10, 20, 30] rfl (· + ·)

/-- The array of arrays as a pipeline. -/
def zipAllPipe {W α : Type} (rows : List (List α)) : Pipe W (List α) :=
  rows.foldr (fun r q => .zipCons (.array r) q) .zipNil

theorem zipAllPipe_sized {W α : Type} (N : Nat) (rows : List (List α))
    (h : ∀ r ∈ rows, r.length = N) : (zipAllPipe (W := W) rows).Sized N := by
  induction rows with
  | nil => trivial
  | cons r rows ih => exact ⟨h r (by simp), ih (fun r hr => h r (by simp [hr]))⟩

theorem zipAllPipe_iter {W α : Type} (rows : List (List α)) :
    (zipAllPipe (W := W) rows).iter = zipAll (rows.map intoIter) := by
  induction rows with
  | nil => rfl
  | cons r rows ih =>
    have : (zipAllPipe (W := W) (r :: rows)).iter =
      zipCons (intoIter r) (zipAllPipe (W := W) rows).iter := rfl
    rw [this, ih]; rfl

theorem zipAllPipe_elem {W α : Type} (rows : List (List α)) (N : Nat)
    (h : ∀ r ∈ rows, r.length = N) (i : Nat) (hi : i < N) (w : W) :
    ∃ c, (zipAllPipe rows).elem i w = some (c, w) ∧ c.length = rows.length ∧
      ∀ (k : Nat) (r : List α), rows[k]? = some r → c[k]? = r[i]? := by
  induction rows with
  | nil => exact ⟨[], rfl, rfl, fun k r hr => by simp at hr⟩
  | cons r rows ih =>
    obtain ⟨c, e, hc, hk⟩ := ih (fun r hr => h r (by simp [hr]))
    have hr : i < r.length := by rw [h r (by simp)]; exact hi
    refine ⟨r[i] :: c, ?_, by simp [hc], ?_⟩
    · have : (zipAllPipe (r :: rows)).elem i w = (r[i]?.map fun a => (a, w)).bind fun x =>
        ((zipAllPipe rows).elem i x.2).map fun y => (x.1 :: y.1, y.2) := rfl
      rw [this, List.getElem?_eq_getElem hr]
      simp only [Option.map_some, Option.bind_some]
      rw [e]; rfl
    · intro k r' hr'
      cases k with
      | zero =>
        simp only [List.getElem?_cons_zero, Option.some.injEq] at hr' ⊢
        subst hr'
        rw [List.getElem?_eq_getElem hr]
      | succ k =>
        simp only [List.getElem?_cons_succ] at hr' ⊢
        exact hk k r' hr'

/-- C85: `zip_all` of an array of arrays is its transpose. -/
theorem C85_zip_all {α : Type} (N : Nat) (rows : List (List α)) (h : ∀ r ∈ rows, r.length = N) :
    ∃ cols, collectArray N (zipAll (rows.map intoIter)) () = some (cols, ()) ∧
      cols.length = N ∧ ∀ i, i < N → ∃ c, cols[i]? = some c ∧ c.length = rows.length ∧
        ∀ (k : Nat) (r : List α), rows[k]? = some r → c[k]? = r[i]? := by
  obtain ⟨l, e, hl, hi⟩ := C85_pointwise N (zipAllPipe rows) (zipAllPipe_sized N rows h)
  rw [zipAllPipe_iter] at e
  refine ⟨l, e, hl, fun i hlt => ?_⟩
  obtain ⟨c, ec, hc, hk⟩ := zipAllPipe_elem rows N h i hlt ()
  exact ⟨c, by rw [hi i hlt, ec]; rfl, hc, hk⟩

example : collectArray 3 (zipAll ([[1, 2, 3], [4, 5, 6]].map intoIter)) () = some ([[1, 4], [2, 5], [3, 6]], ()) := by
  decide

/-- C85: `fold`, `sum` and `product` are the folds from the left of the list of elements. -/
theorem C85_fold {W α γ : Type} (N : Nat) (p : Pipe W α) (h : p.Sized N) (w : W) :
    ∃ l w', runAll p.elem (List.range N) w = some (l, w') ∧
      (∀ (f : γ → α → γ) (acc : γ),
        fold N p.iter acc (fun acc a w => (f acc a, w)) w = some (l.foldl f acc, w')) ∧
      (∀ [Zero α] [Add α], sum N p.iter w = some (l.foldl (· + ·) 0, w')) ∧
      (∀ [One α] [Mul α], product N p.iter w = some (l.foldl (· * ·) 1, w')) := by
  obtain ⟨l, w', _, _, er⟩ := C85_collect N p h w
  refine ⟨l, w', er, fun f acc => ?_, ?_, ?_⟩
  · rw [fold_spec h, er]; rfl
  · intro _ _; unfold sum; rw [fold_spec h, er]; rfl
  · intro _ _; unfold product; rw [fold_spec h, er]; rfl

/-- C85: `any` and `all` poll up to the first element that decides the answer. -/
theorem C85_any_all {W α : Type} (N : Nat) (p : Pipe W α) (h : p.Sized N) (f : α → W → Bool × W)
    (w : W) :
    any N p.iter f w = runAny p.elem f (List.range N) w ∧
    all N p.iter f w = (runAny p.elem (fun a w => (!(f a w).1, (f a w).2)) (List.range N) w).map
      fun r => (!r.1, r.2) :=
  ⟨any_spec h f w, all_spec h f w⟩

theorem runAny_pure {α : Type} (act : Nat → Unit → Option (α × Unit)) (f : α → Bool)
    (is : List Nat) (l : List α) (h : runAll act is () = some (l, ())) :
    runAny act (fun a w => (f a, w)) is () = some (l.any f, ()) := by
  induction is generalizing l with
  | nil =>
    simp only [runAll, Option.some.injEq, Prod.mk.injEq, and_true] at h
    subst h
    rfl
  | cons j is ih =>
    unfold runAll at h
    cases ha : act j () with
    | none => rw [ha] at h; simp at h
    | some r =>
      rw [ha, Option.bind_some] at h
      cases hr : runAll act is r.2 with
      | none => rw [hr] at h; simp at h
      | some t =>
        rw [hr] at h
        simp only [Option.map_some, Option.some.injEq, Prod.mk.injEq, and_true] at h
        subst h
        unfold runAny
        rw [ha, Option.bind_some]
        simp only [List.any_cons]
        cases f r.1 with
        | true => rfl
        | false => exact ih t.1 hr

/-- C85: for closures without effects, `any` and `all` are those of the list of elements. -/
theorem C85_any_all_pure {α : Type} (N : Nat) (p : Pipe Unit α) (h : p.Sized N) (f : α → Bool) :
    ∃ l, collectArray N p.iter () = some (l, ()) ∧
      any N p.iter (fun a w => (f a, w)) () = some (l.any f, ()) ∧
      all N p.iter (fun a w => (f a, w)) () = some (l.all f, ()) := by
  obtain ⟨l, w', e, _, er⟩ := C85_collect N p h ()
  refine ⟨l, e, ?_, ?_⟩
  · rw [any_spec h, runAny_pure p.elem f _ l er]
  · rw [all_spec h, runAny_pure p.elem (fun a => !f a) _ l er]
    simp only [Option.map_some]
    rw [List.not_any_eq_all_not]
    simp

/-- A user-defined iterator that notes the indices it is polled with. -/
def probe {α : Type} (v : Nat → α) : Pipe (List Nat) α := .custom fun i log => (v i, log ++ [i])

theorem runAll_probe {α : Type} (v : Nat → α) (is log : List Nat) :
    runAll (probe v).elem is log = some (is.map v, log ++ is) := by
  induction is generalizing log with
  | nil => simp [runAll]
  | cons i is ih =>
    unfold runAll
    have : (probe v).elem i log = some (v i, log ++ [i]) := rfl
    rw [this, Option.bind_some, ih]
    simp

/-- C85: an iterator is polled exactly once for each index, in increasing order. -/
theorem C85_polls {α : Type} (N : Nat) (v : Nat → α) :
    collectArray N (probe v).iter [] = some ((List.range N).map v, List.range N) := by
  obtain ⟨l, w', e, _, er⟩ := C85_collect N (probe v) trivial []
  rw [runAll_probe] at er
  simp only [List.nil_append, Option.some.injEq, Prod.mk.injEq] at er
  rw [e, er.1, er.2]

/-- The contract matters: polling an index of an array twice is undefined behaviour. -/
theorem C85_twice_is_ub {W α : Type} (l : List α) (i : Nat) (w : W) (a : α)
    (s : List (Option α)) (w' : W) (h : (intoIter l).idx (l.map some) i w = some (a, s, w')) :
    (intoIter (W := W) l).idx s i w = none := by
  simp only [intoIter] at h ⊢
  cases hs : (l.map some)[i]? with
  | none => rw [hs] at h; simp at h
  | some o =>
    rw [hs] at h
    cases o with
    | none => simp at h
    | some b =>
      simp only [Option.some.injEq, Prod.mk.injEq] at h
      obtain ⟨_, rfl, _⟩ := h
      rw [List.getElem?_set_self (by
        have := List.getElem?_eq_some_iff.mp hs
        exact this.1)]

example : (Pipe.map (.zip (.array [1, 2, 3]) (.enumerate (.array [10, 20, 30])))
    (fun x log => (x.1 + x.2.1 + x.2.2, log ++ [x.1])) : Pipe (List Nat) Nat).Sized 3 :=
  ⟨rfl, rfl⟩
example : collectArray 3 (Pipe.map (.zip (.array [1, 2, 3]) (.enumerate (.array [10, 20, 30])))
    (fun x log => (x.1 + x.2.1 + x.2.2, log ++ [x.1])) : Pipe (List Nat) Nat).iter [] =
    some ([11, 23, 35], [1, 2, 3]) := by decide
example : any 4 (Pipe.array [1, 5, 2, 7] : Pipe (List Nat) Nat).iter
    (fun a log => (decide (a > 3), log ++ [a])) [] = some (true, [1, 5]) := by decide

/-! ## C86: fallible collections -/

/-- C86: collecting into any nesting of `Option` and `Result` around an array stores the elements one
after the other until one decides the result; no index after it is polled, and nothing is undefined. -/
theorem C86_collect {W T X O : Type} (N : Nat) (sh : Shape T X O) (p : Pipe W T) (h : p.Sized N)
    (w : W) :
    collect N p.iter (sh.coll N) w = sh.gather p.elem (List.range N) [] w ∧
    ∃ r, collect N p.iter (sh.coll N) w = some r := by
  obtain ⟨h1, h2⟩ := collect_spec sh p h w
  exact ⟨h1, by rw [h1]; exact Option.isSome_iff_exists.mp h2⟩

/-- Where collecting stops: all elements before `k` are stored, the `k`-th decides. -/
theorem gather_stop {T X O : Type} (sh : Shape T X O) (v : Nat → T) (k : Nat) (xs : Nat → X)
    (o : O) (hx : ∀ i, i < k → sh.cls (v i) = .inl (xs i)) (ho : sh.cls (v k) = .inr o)
    (n j : Nat) (hj : j ≤ k) (hk : k < j + n) (acc : List X) (log : List Nat) :
    sh.gather (probe v).elem (List.range' j n) acc log =
      some (o, log ++ List.range' j (k + 1 - j)) := by
  induction n generalizing j acc log with
  | zero => omega
  | succ n ih =>
    rw [List.range'_succ]
    unfold Shape.gather
    have : (probe v).elem j log = some (v j, log ++ [j]) := rfl
    rw [this, Option.bind_some]
    simp only
    by_cases h : j = k
    · subst h
      rw [ho]
      have e : j + 1 - j = 1 := by omega
      simp [e]
    · rw [hx j (by omega)]
      simp only
      rw [ih (j + 1) (by omega) (by omega)]
      have e : k + 1 - j = (k + 1 - (j + 1)) + 1 := by omega
      rw [e, List.range'_succ]
      simp

theorem gather_all {T X O : Type} (sh : Shape T X O) (v : Nat → T) (xs : Nat → X)
    (n j : Nat) (hx : ∀ i, i < j + n → sh.cls (v i) = .inl (xs i)) (acc : List X)
    (log : List Nat) :
    sh.gather (probe v).elem (List.range' j n) acc log =
      some (sh.done (acc ++ (List.range' j n).map xs), log ++ List.range' j n) := by
  induction n generalizing j acc log with
  | zero => simp [Shape.gather]
  | succ n ih =>
    rw [List.range'_succ]
    unfold Shape.gather
    have : (probe v).elem j log = some (v j, log ++ [j]) := rfl
    rw [this, Option.bind_some]
    simp only
    rw [hx j (by omega)]
    simp only
    rw [ih (j + 1) (fun i hi => hx i (by omega))]
    simp

/-- C86: the first element that is not plain success decides the result, and the indices polled are
those up to it; if there is none, the whole array is collected. For any nesting. -/
theorem C86_first_failure {T X O : Type} (N : Nat) (sh : Shape T X O) (v : Nat → T) (xs : Nat → X) :
    (∀ k o, k < N → (∀ i, i < k → sh.cls (v i) = .inl (xs i)) → sh.cls (v k) = .inr o →
      collect N (probe v).iter (sh.coll N) [] = some (o, List.range (k + 1))) ∧
    ((∀ i, i < N → sh.cls (v i) = .inl (xs i)) →
      collect N (probe v).iter (sh.coll N) [] =
        some (sh.done ((List.range N).map xs), List.range N)) := by
  have h := (C86_collect N sh (probe v) trivial []).1
  rw [List.range_eq_range'] at h ⊢
  constructor
  · intro k o hk hx ho
    rw [h, gather_stop sh v k xs o hx ho N 0 (by omega) (by omega), List.nil_append,
      List.range_eq_range', Nat.sub_zero]
  · intro hx
    rw [h, gather_all sh v xs N 0 (fun i hi => hx i (by omega)), List.nil_append, List.nil_append]

/-- C86, one layer: `Option<[T; N]>` and `Result<[T; N], E>` of an array of options or results are
`Some`/`Ok` of all the values, or `None`/the first error. -/
theorem C86_one_layer {T E : Type} (l : List (Option T)) (l' : List (Except E T)) :
    collect l.length (Pipe.array l : Pipe Unit _).iter
      ((Shape.option (.array T)).coll l.length) () = some (l.mapM id, ()) ∧
    collect l'.length (Pipe.array l' : Pipe Unit _).iter
      ((Shape.result E (.array T)).coll l'.length) () = some (l'.mapM id, ()) := by
  have ho : ∀ n j acc, j + n = l.length →
      (Shape.option (.array T)).gather (Pipe.array l : Pipe Unit _).elem (List.range' j n) acc () =
      some (((l.drop j).mapM id).map (acc ++ ·), ()) := by
    intro n
    induction n with
    | zero =>
      intro j acc hj
      rw [List.drop_eq_nil_of_le (by omega)]
      simp [Shape.gather, Shape.done]
    | succ n ih =>
      intro j acc hj
      have hlt : j < l.length := by omega
      rw [List.range'_succ, List.drop_eq_getElem_cons hlt]
      unfold Shape.gather
      have : (Pipe.array l : Pipe Unit _).elem j () = some (l[j], ()) := by
        simp only [Pipe.elem]; rw [List.getElem?_eq_getElem hlt]; rfl
      rw [this, Option.bind_some]
      cases hv : l[j] with
      | none => simp [Shape.cls]
      | some v =>
        simp only [Shape.cls]
        rw [ih (j + 1) _ (by omega)]
        cases h : (l.drop (j + 1)).mapM id <;> simp [h]
  have hr : ∀ n j acc, j + n = l'.length →
      (Shape.result E (.array T)).gather (Pipe.array l' : Pipe Unit _).elem (List.range' j n) acc ()
      = some (((l'.drop j).mapM id).map (acc ++ ·), ()) := by
    intro n
    induction n with
    | zero =>
      intro j acc hj
      rw [List.drop_eq_nil_of_le (by omega)]
      simp [Shape.gather, Shape.done, pure, Except.pure, Except.map]
    | succ n ih =>
      intro j acc hj
      have hlt : j < l'.length := by omega
      rw [List.range'_succ, List.drop_eq_getElem_cons hlt]
      unfold Shape.gather
      have : (Pipe.array l' : Pipe Unit _).elem j () = some (l'[j], ()) := by
        simp only [Pipe.elem]; rw [List.getElem?_eq_getElem hlt]; rfl
      rw [this, Option.bind_some]
      cases hv : l'[j] with
      | error e => simp [Shape.cls]; rfl
      | ok v =>
        simp only [Shape.cls]
        rw [ih (j + 1) _ (by omega)]
        simp only [List.mapM_cons, id]
        cases h : (l'.drop (j + 1)).mapM id <;> simp [Except.map, bind, Except.bind, pure,
          Except.pure]
  constructor
  · rw [(C86_collect l.length (.option (.array T)) (.array l) (by simp [Pipe.Sized]) ()).1, List.range_eq_range',
      ho l.length 0 [] (by omega)]
    simp
  · rw [(C86_collect l'.length (.result E (.array T)) (.array l')
      (by simp [Pipe.Sized]) ()).1, List.range_eq_range',
      hr l'.length 0 [] (by omega)]
    cases h : l'.mapM id <;> simp [Except.map, h]

example : collect 4 (Pipe.array [some (some 1), some none, none, some (some 2)] :
    Pipe Unit (Option (Option Nat))).iter ((Shape.option (.option (.array Nat))).coll 4) () =
    some (some none, ()) := by decide
example : collect 2 (Pipe.array [some (some 1), some (some 2)] :
    Pipe Unit (Option (Option Nat))).iter ((Shape.option (.option (.array Nat))).coll 2) () =
    some (some (some [1, 2]), ()) := by decide
example : (Shape.option (.option (.array Nat))).cls (some none) = .inr (some none) := rfl

/-! ## C91: ownership of the elements -/

/-- C91 fails in the code: when collecting stops early, the elements not yet polled stay in the
iterator, whose slots are never dropped; they are leaked. -/
theorem C91_leak_violated : ¬ ∀ (l : List (Option Nat)) r,
    collectState l.length (intoIter (W := Unit) l) (optionColl (arrayColl Nat l.length)) () =
      some r → ∀ s ∈ (show List (Option (Option Nat)) from r.2.1), s = none := by
  intro h
  have := h [none, some 7] (none, [none, some (some 7)], ()) (by rfl) (some (some 7))
    (List.mem_cons_of_mem _ (List.mem_singleton.mpr rfl))
  simp at this

theorem collectArrayState_inv {W α : Type} {N : Nat} {it : SIter W α}
    {act : Nat → W → Option (α × W)} {Inv : Nat → it.St → Prop} (h : Yields N it act Inv) {w : W}
    {r : List α × it.St × W} (hr : collectArrayState N it w = some r) : Inv N r.2.1 := by
  unfold collectArrayState at hr
  cases hp : pollFold (β := Empty) it (fun (acc : List α) _ a w => some (.cont (acc ++ [a]), w))
      (List.range N) [] it.st w with
  | none => rw [hp] at hr; simp at hr
  | some q =>
    rw [List.range_eq_range'] at hp
    have hinv := (pollFold_spec h (β := Empty)
      (fun (acc : List α) _ a w => some (.cont (acc ++ [a]), w)) N 0 (by omega) [] _ w
      h.init).2 q hp
    rw [← List.range_eq_range'] at hp
    rw [hp] at hr
    obtain ⟨q1, q2, q3⟩ := q
    cases q1 with
    | brk b => exact b.elim
    | cont c =>
      simp only [Option.bind_some, Option.some.injEq] at hr
      subst hr
      exact hinv ⟨c, rfl⟩

/-- C91, the part that holds: when an array is collected through `map` to the end, every element has
been moved out exactly once: no slot is left initialised, and (see C85) none was read twice. Missing:
collections that stop early. -/
theorem C91_moved_once_partial {W α β : Type} (l : List α) (f : α → W → β × W) (w : W) :
    ∃ (out : List β) (s : List (Option α)) (w' : W),
      collectArrayState l.length (map (intoIter l) f) w = some (out, s, w') ∧
      out.length = l.length ∧ s = List.replicate l.length none := by
  obtain ⟨out, w', e, hl, _⟩ := C85_collect l.length (Pipe.map (.array l) f)
    (show (Pipe.array l : Pipe W α).Sized l.length by simp [Pipe.Sized]) w
  have hy := intoIter_yields (W := W) l
  have hm : Yields l.length (map (intoIter l) f) (Pipe.map (.array l) f).elem
      (fun k s => s = (l.mapIdx fun i a => if i < k then none else some a)) := by
    refine ⟨hy.init, fun k s w hk hi => ?_⟩
    obtain ⟨a, s', w', e1, e2, e3⟩ := hy.step k s w hk hi
    refine ⟨(f a w').1, s', (f a w').2, ?_, ?_, e3⟩
    · simp only [Pipe.elem] at e1 ⊢; rw [e1]; rfl
    · simp only [map]; rw [e2]; rfl
  obtain ⟨r, hr, er⟩ := Option.map_eq_some_iff.mp e
  refine ⟨r.1, r.2.1, r.2.2, hr, by rw [← hl, congrArg Prod.fst er], ?_⟩
  have hinv : (show List (Option α) from r.2.1) =
    l.mapIdx fun i a => if i < l.length then none else some a := collectArrayState_inv hm hr
  refine Eq.trans hinv (List.ext_getElem? fun i => ?_)
  rw [List.getElem?_mapIdx, List.getElem?_replicate]
  by_cases hi : i < l.length
  · rw [if_pos hi, List.getElem?_eq_getElem hi]; simp [hi]
  · rw [if_neg hi, List.getElem?_eq_none (by omega)]; rfl

example : collectArrayState 2 (map (intoIter [1, 2]) fun a (w : Unit) => (a + 1, w)) () =
    some ([2, 3], [none, none], ()) := rfl

end Verif
