import Verif.Lemmas.StaticDrop

/-!
# C156: closures that panic

Elements own resources, named by tokens; `List.count t` of the lists below counts how often the resource
`t` occurs. A pipeline is any composition of the adapters over arrays and references, with closures that
may have state, drop, create and pass on resources, and panic.
-/

namespace Verif

namespace StaticDrop

/-- A pipeline. -/
inductive Pipe (W : Type) : Type → Type 1 where
  | array {V : Type} (l : List (Item V)) : Pipe W V
  | refs {V : Type} (l : List V) : Pipe W V
  | map {V V' : Type} (p : Pipe W V) (f : Item V → W → Effect W V') : Pipe W V'
  | zip {V V' : Type} (p : Pipe W V) (q : Pipe W V') : Pipe W (V × V')
  | enumerate {V : Type} (p : Pipe W V) : Pipe W (Nat × V)
  | zipNil {V : Type} : Pipe W (List V)
  | zipCons {V : Type} (p : Pipe W V) (q : Pipe W (List V)) : Pipe W (List V)

namespace Pipe

/-- The iterator built by the methods of the crate. -/
def iter {W : Type} : {V : Type} → Pipe W V → SIter W V
  | _, .array l => intoIter l
  | _, .refs l => refIter l
  | _, .map p f => StaticDrop.map p.iter f
  | _, .zip p q => StaticDrop.zip p.iter q.iter
  | _, .enumerate p => StaticDrop.enumerate p.iter
  | _, .zipNil => StaticDrop.zipNil
  | _, .zipCons p q => StaticDrop.zipCons p.iter q.iter

/-- All arrays have length `N`. -/
def Sized {W : Type} (N : Nat) : {V : Type} → Pipe W V → Prop
  | _, .array l => l.length = N
  | _, .refs l => l.length = N
  | _, .map p _ => p.Sized N
  | _, .zip p q => p.Sized N ∧ q.Sized N
  | _, .enumerate p => p.Sized N
  | _, .zipNil => True
  | _, .zipCons p q => p.Sized N ∧ q.Sized N

/-- No closure of the pipeline leaks or duplicates resources itself: what it gets and creates it returns
or drops, everything if it panics. -/
def Fair {W : Type} : {V : Type} → Pipe W V → Prop
  | _, .array _ => True
  | _, .refs _ => True
  | _, .map p f => p.Fair ∧ ∀ a w, (f a w).Fair a.own
  | _, .zip p q => p.Fair ∧ q.Fair
  | _, .enumerate p => p.Fair
  | _, .zipNil => True
  | _, .zipCons p q => p.Fair ∧ q.Fair

/-- The resources of the elements from index `k` on of the arrays that go into the pipeline. -/
def tail {W : Type} : {V : Type} → Pipe W V → Nat → List Tok
  | _, .array l, k => owned (l.drop k)
  | _, .refs _, _ => []
  | _, .map p _, k => p.tail k
  | _, .zip p q, k => p.tail k ++ q.tail k
  | _, .enumerate p, k => p.tail k
  | _, .zipNil, _ => []
  | _, .zipCons p q, k => p.tail k ++ q.tail k

end Pipe

theorem Pipe.good {W : Type} (N : Nat) {V : Type} (p : Pipe W V) (hs : p.Sized N) (hf : p.Fair) :
    Good N p.tail p.iter := by
  induction p with
  | array l => rw [← show l.length = N from hs]; exact good_array l
  | refs l => rw [← show l.length = N from hs]; exact good_refs l
  | map p f ih => exact good_map (ih hs hf.1) f hf.2
  | zip p q ih1 ih2 => exact good_zip (ih1 hs.1 hf.1) (ih2 hs.2 hf.2)
  | enumerate p ih => exact good_enumerate (ih hs hf)
  | zipNil => exact good_zipNil N
  | zipCons p q ih1 ih2 => exact good_zipCons (ih1 hs.1 hf.1) (ih2 hs.2 hf.2)

theorem Pipe.tail_end {W : Type} (N : Nat) {V : Type} (p : Pipe W V) (hs : p.Sized N) :
    p.tail N = [] := by
  induction p with
  | array l => rw [← show l.length = N from hs]; simp [tail, owned]
  | refs l => rfl
  | map p f ih => exact ih hs
  | zip p q ih1 ih2 => simp [tail, ih1 hs.1, ih2 hs.2]
  | enumerate p ih => exact ih hs
  | zipNil => rfl
  | zipCons p q ih1 ih2 => simp [tail, ih1 hs.1, ih2 hs.2]

variable {W V : Type}

private theorem nil_of_count {l : List Tok} (h : ∀ t, l.count t = 0) : l = [] := by
  cases l with
  | nil => rfl
  | cons a l => have := h a; simp at this

private theorem range_eq (N : Nat) : List.range N = List.range' 0 (N - 0) := by
  rw [List.range_eq_range']; rfl

/-- C156 for `collect` into an array: nothing is undefined, and every resource that went in or was
created is in exactly one place: in the array returned, dropped, or leaked. If the call returns, nothing
is leaked; if a closure panics, during the poll of some index `j`, what is leaked are resources of
elements not yet polled: all those behind `j`, and none before `j`. -/
theorem C156_collect_partial (N : Nat) (p : Pipe W V) (hs : p.Sized N) (hf : p.Fair) (env : W) :
    let r := collectArray N p.iter ⟨env, [], []⟩
    r.out ≠ .ub ∧
    (∀ t, (p.tail 0).count t + r.world.created.count t =
      (r.out.own owned).count t + r.world.dropped.count t + r.leaked.count t) ∧
    ((∃ l, r.out = .ret l ∧ l.length = N ∧ r.leaked = []) ∨
      r.out = .panic ∧ ∃ j < N, ∀ t, (p.tail (j + 1)).count t ≤ r.leaked.count t ∧
        r.leaked.count t ≤ (p.tail j).count t) := by
  obtain ⟨Inv, h0, h1, h2⟩ := p.good N hs hf
  obtain ⟨g1, g2⟩ := collectArrayFrom_spec h1 h2 N 0 (by omega) [] p.iter.st ⟨env, [], []⟩ h0
  rw [← range_eq] at g1 g2
  refine ⟨g1.defined, fun t => ?_, ?_⟩
  · have := g1.account t
    simp only [owned, List.map_nil, List.flatten_nil, List.count_nil] at this
    change _ = (Out.own owned (collectArrayFrom _ _ _ _ _).out).count t +
      (collectArrayFrom _ _ _ _ _).world.dropped.count t + (collectArrayFrom _ _ _ _ _).leaked.count t
    change _ + (collectArrayFrom _ _ _ _ _).world.created.count t = _
    change 0 + _ + _ + 0 = (Out.own owned _).count t + _ + _ + 0 at this
    omega
  · rcases g2 with ⟨l, q1, q2, q3⟩ | ⟨q1, j, -, q3, q4⟩
    · refine Or.inl ⟨l, q1, by simpa using q2, nil_of_count fun t => ?_⟩
      have := q3 t
      rw [p.tail_end N hs] at this
      exact this
    · exact Or.inr ⟨q1, j, q3, q4⟩

/-- C156 for `collect` into any nesting of `Option` and `Result` around an array (`cls` says which
values decide the result): every resource is in exactly one place; nothing is leaked if all elements are
stored, and otherwise at least everything behind the index at which the loop was left. (The elements
already stored are leaked too, see `C156_leak_violated`.) -/
theorem C156_collect_try_partial {X O : Type} (cls : V → X ⊕ O) (N : Nat) (p : Pipe W V)
    (hs : p.Sized N) (hf : p.Fair) (env : W) :
    let r := collectTry cls N p.iter ⟨env, [], []⟩
    r.out ≠ .ub ∧
    (∀ t, (p.tail 0).count t + r.world.created.count t =
      (r.out.own (Sum.elim owned Item.own)).count t + r.world.dropped.count t + r.leaked.count t) ∧
    ((∃ l, r.out = .ret (.inl l) ∧ l.length = N ∧ r.leaked = []) ∨
      (∀ l, r.out ≠ .ret (.inl l)) ∧ ∃ j < N, ∀ t, (p.tail (j + 1)).count t ≤ r.leaked.count t) := by
  obtain ⟨Inv, h0, h1, h2⟩ := p.good N hs hf
  obtain ⟨g1, g2⟩ := collectTryFrom_spec cls h1 h2 N 0 (by omega) [] p.iter.st ⟨env, [], []⟩ h0
  rw [← range_eq] at g1 g2
  refine ⟨g1.defined, fun t => ?_, ?_⟩
  · have := g1.account t
    change 0 + _ + _ + 0 = _ + 0 at this
    unfold collectTry
    omega
  · rcases g2 with ⟨l, q1, q2, q3⟩ | ⟨q1, j, -, q3, q4⟩
    · refine Or.inl ⟨l, q1, by simpa using q2, nil_of_count fun t => ?_⟩
      have := q3 t
      rw [p.tail_end N hs] at this
      exact this
    · exact Or.inr ⟨q1, j, q3, q4⟩

/-- C156 for `try_fold`, and so for `fold`, `any`, `all`, `sum` and `product`: every resource, those of
the start value included, is in exactly one place; nothing is leaked if the fold runs to the end, and
otherwise what belongs to the elements not yet polled. -/
theorem C156_fold_partial {G E : Type} (N : Nat) (p : Pipe W V) (hs : p.Sized N) (hf : p.Fair)
    (start : Item G) (f : Item G → Item V → W → Effect W (G ⊕ E))
    (hff : ∀ g a w, (f g a w).Fair (g.own ++ a.own)) (env : W) :
    let r := tryFold N p.iter start f ⟨env, [], []⟩
    r.out ≠ .ub ∧
    (∀ t, start.own.count t + (p.tail 0).count t + r.world.created.count t =
      (r.out.own (Sum.elim Item.own Item.own)).count t + r.world.dropped.count t + r.leaked.count t) ∧
    ((∃ g, r.out = .ret (.inl g) ∧ r.leaked = []) ∨
      (∀ g, r.out ≠ .ret (.inl g)) ∧ ∃ j < N, ∀ t, (p.tail (j + 1)).count t ≤ r.leaked.count t ∧
        r.leaked.count t ≤ (p.tail j).count t) := by
  obtain ⟨Inv, h0, h1, h2⟩ := p.good N hs hf
  obtain ⟨g1, g2⟩ := tryFoldFrom_spec f hff h1 h2 N 0 (by omega) start p.iter.st ⟨env, [], []⟩ h0
  rw [← range_eq] at g1 g2
  refine ⟨g1.defined, fun t => ?_, ?_⟩
  · have := g1.account t
    change _ + _ + _ + 0 = _ + 0 at this
    unfold tryFold
    omega
  · rcases g2 with ⟨l, q1, q3⟩ | ⟨q1, j, -, q3, q4⟩
    · refine Or.inl ⟨l, q1, nil_of_count fun t => ?_⟩
      have := q3 t
      rw [p.tail_end N hs] at this
      exact this
    · exact Or.inr ⟨q1, j, q3, q4⟩

/-- C156, what the accounts mean: if all resources that went in or were created are different, none is
dropped twice, none is dropped and returned as well, and none is returned twice. -/
theorem C156_no_double_drop (inn created out dropped leaked : List Tok)
    (h : ∀ t, inn.count t + created.count t = out.count t + dropped.count t + leaked.count t)
    (hn : (inn ++ created).Nodup) :
    dropped.Nodup ∧ out.Nodup ∧ (∀ t ∈ out, t ∉ dropped ∧ t ∉ leaked) ∧
      (∀ t ∈ dropped, t ∉ leaked) ∧ ∀ t ∈ inn ++ created, t ∈ out ∨ t ∈ dropped ∨ t ∈ leaked := by
  have hle : ∀ t, out.count t + dropped.count t + leaked.count t ≤ 1 := by
    intro t
    have := List.nodup_iff_count.mp hn t
    rw [List.count_append, h t] at this
    exact this
  refine ⟨List.nodup_iff_count.mpr fun t => ?_, List.nodup_iff_count.mpr fun t => ?_, fun t ht => ?_,
    fun t ht => ?_, fun t ht => ?_⟩
  · have := hle t; omega
  · have := hle t; omega
  · have h1 := hle t
    have h2 := List.count_pos_iff.mpr ht
    constructor <;> intro hc <;> have h3 := List.count_pos_iff.mpr hc <;> omega
  · have h1 := hle t
    have h2 := List.count_pos_iff.mpr ht
    intro hc
    have h3 := List.count_pos_iff.mpr hc
    omega
  · have h2 := List.count_pos_iff.mpr ht
    rw [List.count_append, h t] at h2
    by_cases h3 : t ∈ out
    · exact Or.inl h3
    by_cases h4 : t ∈ dropped
    · exact Or.inr (Or.inl h4)
    refine Or.inr (Or.inr (List.count_pos_iff.mp ?_))
    rw [List.count_eq_zero_of_not_mem h3, List.count_eq_zero_of_not_mem h4] at h2
    omega

/-- A closure that hands on what it gets, except that it panics on the value 0. -/
def panicOnZero (a : Item Nat) (w : Unit) : Effect Unit Nat :=
  if a.val = 0 then { out := none, dropped := a.own, env := w } else { out := some a, env := w }

theorem panicOnZero_fair (a : Item Nat) (w : Unit) : (panicOnZero a w).Fair a.own := by
  intro t
  unfold panicOnZero
  split <;> simp

/-- C156, the claim itself, is violated: the closure panics on the second of four elements. Collecting
into an array drops the first two elements and leaks the last two; collecting into an `Option` leaks the
first one too; and an `Option` that is `None` leaks what was stored before and what comes after, without
any panic. -/
theorem C156_leak_violated :
    collectArray 4 (Pipe.map (.array [⟨1, [10]⟩, ⟨0, [11]⟩, ⟨2, [12]⟩, ⟨3, [13]⟩]) panicOnZero).iter
        ⟨(), [], []⟩ = ⟨.panic, [12, 13], ⟨(), [], [11, 10]⟩⟩ ∧
    collectTry (X := Nat) (O := Unit) Sum.inl 4
        (Pipe.map (.array [⟨1, [10]⟩, ⟨0, [11]⟩, ⟨2, [12]⟩, ⟨3, [13]⟩]) panicOnZero).iter
        ⟨(), [], []⟩ = ⟨.panic, [10, 12, 13], ⟨(), [], [11]⟩⟩ ∧
    collectTry (fun v : Option Nat => match v with | some x => Sum.inl x | none => Sum.inr ()) 3
        (Pipe.array [⟨some 1, [10]⟩, ⟨none, []⟩, ⟨some 2, [12]⟩]).iter
        (⟨(), [], []⟩ : World Unit) = ⟨.ret (.inr ⟨(), []⟩), [10, 12], ⟨(), [], []⟩⟩ := by
  decide

/-- C156 for `map` over one array, exactly: the closure panics first on the element `k`; then the
elements behind it are leaked, no more and no fewer, and everything else is dropped. -/
theorem C156_map_exact_partial {V V' : Type} (l : List (Item V)) (f : Item V → Unit → Effect Unit V')
    (hf : ∀ a w, (f a w).Fair a.own) (k : Nat) (hk : k < l.length)
    (h1 : ∀ i (hi : i < k), (f l[i] ()).out ≠ none) (h2 : (f l[k] ()).out = none) :
    let r := collectArray l.length (Pipe.map (.array l) f).iter ⟨(), [], []⟩
    r.out = .panic ∧ r.leaked = owned (l.drop (k + 1)) ∧
    ∀ t, (owned (l.take (k + 1))).count t + r.world.created.count t = r.world.dropped.count t := by
  have step : ∀ j i acc (w : World Unit), j ≤ k → i + j = k → ∃ w',
      collectArrayFrom (map (intoIter l) f) (List.range' i (l.length - i)) acc
        (List.replicate i none ++ (l.drop i).map some) w =
        ⟨.panic, owned (l.drop (k + 1)), w'⟩ := by
    intro j
    induction j with
    | zero =>
      intro i acc w _ hi
      have : i = k := by omega
      subst this
      rw [range'_succ_cons hk]
      have e : (List.replicate i none ++ (l.drop i).map some)[i]? = some (some l[i]) := by
        rw [List.getElem?_append_right (by simp)]
        simp [hk]
      have e2 : (List.replicate i none ++ (l.drop i).map some).set i none =
          List.replicate (i + 1) none ++ (l.drop (i + 1)).map some := by
        rw [List.set_append_right _ _ (by simp), List.drop_eq_getElem_cons hk, List.length_replicate,
          Nat.sub_self, List.map_cons, List.set_cons_zero, List.replicate_succ', List.append_assoc]
        rfl
      refine ⟨(w.after (f l[i] w.env)).drop (owned acc), ?_⟩
      simp only [collectArrayFrom, map, intoIter, e, e2, h2]
      rw [slots_state]
    | succ j ih =>
      intro i acc w hj hi
      have hlt : i < l.length := by omega
      rw [range'_succ_cons hlt]
      have e : (List.replicate i none ++ (l.drop i).map some)[i]? = some (some l[i]) := by
        rw [List.getElem?_append_right (by simp)]
        simp [hlt]
      have e2 : (List.replicate i none ++ (l.drop i).map some).set i none =
          List.replicate (i + 1) none ++ (l.drop (i + 1)).map some := by
        rw [List.set_append_right _ _ (by simp), List.drop_eq_getElem_cons hlt, List.length_replicate,
          Nat.sub_self, List.map_cons, List.set_cons_zero, List.replicate_succ', List.append_assoc]
        rfl
      cases hb : (f l[i] ()).out with
      | none => exact absurd hb (h1 i (by omega))
      | some b =>
        obtain ⟨w', hw'⟩ := ih (i + 1) (acc ++ [b]) (w.after (f l[i] w.env)) (by omega) (by omega)
        refine ⟨w', ?_⟩
        rw [← hw']
        simp only [collectArrayFrom, map, intoIter, e, e2, hb]
  obtain ⟨w', hw'⟩ := step k 0 [] ⟨(), [], []⟩ (Nat.le_refl _) (by omega)
  have hr : collectArray l.length (Pipe.map (.array l) f).iter ⟨(), [], []⟩ =
      ⟨.panic, owned (l.drop (k + 1)), w'⟩ := by
    rw [← hw']
    unfold collectArray
    rw [range_eq]
    rfl
  have hacc := (C156_collect_partial l.length (Pipe.map (.array l) f) rfl ⟨trivial, hf⟩ ()).2.1
  dsimp only at hacc ⊢
  rw [hr] at hacc ⊢
  refine ⟨rfl, rfl, fun t => ?_⟩
  have := hacc t
  simp only [Pipe.tail, List.drop_zero, Out.own, List.count_nil] at this
  have hsplit : (owned l).count t = (owned (l.take (k + 1))).count t +
      (owned (l.drop (k + 1))).count t := by
    conv_lhs => rw [← List.take_append_drop (k + 1) l]
    simp only [owned, List.map_append, List.flatten_append, List.count_append]
  dsimp only
  omega

example : (collectArray 3 (Pipe.map (.array [⟨1, [10]⟩, ⟨0, [11]⟩, ⟨2, [12]⟩]) panicOnZero).iter
    ⟨(), [], []⟩).leaked = [12] :=
  (C156_map_exact_partial [⟨1, [10]⟩, ⟨0, [11]⟩, ⟨2, [12]⟩] panicOnZero panicOnZero_fair 1 (by decide)
    (fun i hi => by
      have : i = 0 := by omega
      subst this
      show some _ ≠ none
      simp) rfl).2.1

/-- C156 for `map` over one array collected into an `Option` or `Result`, exactly: the closure makes `st` of the first `k`
elements, all of which are stored; on element `k` it panics, or makes something that decides the result. Then what
was stored and the elements behind `k` are leaked, no more and no fewer. Missing, because false: that nothing is. -/
theorem C156_map_try_exact_partial {V V' X O : Type} (cls : V' → X ⊕ O) (l : List (Item V))
    (f : Item V → Unit → Effect Unit V') (st : List (Item V')) (hk : st.length < l.length)
    (h1 : ∀ i (hi : i < st.length), (f l[i] ()).out = some st[i] ∧ ∃ x, cls st[i].val = .inl x) :
    let r := collectTry cls l.length (Pipe.map (.array l) f).iter ⟨(), [], []⟩
    ((f l[st.length] ()).out = none →
      r.out = .panic ∧ r.leaked = owned st ++ owned (l.drop (st.length + 1))) ∧
    (∀ c o, (f l[st.length] ()).out = some c → cls c.val = .inr o →
      r.out = .ret (.inr ⟨o, c.own⟩) ∧ r.leaked = owned st ++ owned (l.drop (st.length + 1))) := by
  have he : ∀ i, (hi : i < l.length) →
      (List.replicate i none ++ (l.drop i).map some)[i]? = some (some l[i]) := fun i hi => by
    rw [List.getElem?_append_right (by simp)]
    simp [hi]
  have he2 : ∀ i, i < l.length → (List.replicate i none ++ (l.drop i).map some).set i none =
      List.replicate (i + 1) none ++ (l.drop (i + 1)).map some := fun i hi => by
    rw [List.set_append_right _ _ (by simp), List.drop_eq_getElem_cons hi, List.length_replicate,
      Nat.sub_self, List.map_cons, List.set_cons_zero, List.replicate_succ', List.append_assoc]
    rfl
  have step : ∀ j i acc (w : World Unit), i + j = st.length → ∃ acc' w', owned acc' = owned acc ++ owned (st.drop i) ∧
      collectTryFrom cls (map (intoIter l) f) (List.range' i (l.length - i)) acc
        (List.replicate i none ++ (l.drop i).map some) w =
      collectTryFrom cls (map (intoIter l) f) (List.range' st.length (l.length - st.length)) acc'
        (List.replicate st.length none ++ (l.drop st.length).map some) w' := by
    intro j
    induction j with
    | zero =>
      intro i acc w hi
      have : i = st.length := by omega
      subst this
      exact ⟨acc, w, by simp [owned], rfl⟩
    | succ j ih =>
      intro i acc w hi
      have hlt : i < l.length := by omega
      obtain ⟨hb, x, hx⟩ := h1 i (by omega)
      obtain ⟨acc', w', ho, hw⟩ := ih (i + 1) (acc ++ [⟨x, (st[i]'(by omega)).own⟩]) (w.after (f l[i] w.env)) (by omega)
      refine ⟨acc', w', ?_, ?_⟩
      · rw [ho, List.drop_eq_getElem_cons (show i < st.length by omega)]
        simp only [owned, List.map_append, List.map_cons, List.map_nil, List.flatten_append, List.flatten_cons,
          List.flatten_nil, List.append_nil, List.append_assoc]
      · rw [← hw, range'_succ_cons hlt]
        simp only [collectTryFrom, map, intoIter, he i hlt, he2 i hlt, hb, hx]
  obtain ⟨acc', w', ho, hw⟩ := step st.length 0 [] ⟨(), [], []⟩ (by omega)
  have hr : collectTry cls l.length (Pipe.map (.array l) f).iter ⟨(), [], []⟩ =
      collectTryFrom cls (map (intoIter l) f) (List.range' st.length (l.length - st.length)) acc'
        (List.replicate st.length none ++ (l.drop st.length).map some) w' := by
    rw [← hw]
    unfold collectTry
    rw [range_eq]
    rfl
  have ho' : owned acc' = owned st := by rw [ho]; simp [owned]
  dsimp only
  rw [hr, range'_succ_cons hk]
  constructor
  · intro h
    simp only [collectTryFrom, map, intoIter, he _ hk, he2 _ hk, h]
    rw [slots_state, ho']
    exact ⟨trivial, rfl⟩
  · intro c o h hc
    simp only [collectTryFrom, map, intoIter, he _ hk, he2 _ hk, h, hc]
    rw [slots_state, ho']
    exact ⟨trivial, rfl⟩

example : (collectTry (X := Nat) (O := Unit) Sum.inl 3
    (Pipe.map (.array [⟨1, [10]⟩, ⟨0, [11]⟩, ⟨2, [12]⟩]) panicOnZero).iter ⟨(), [], []⟩).leaked = [10, 12] :=
  ((C156_map_try_exact_partial Sum.inl [⟨1, [10]⟩, ⟨0, [11]⟩, ⟨2, [12]⟩] panicOnZero [⟨1, [10]⟩] (by decide)
    (fun i hi => by
      have : i = 0 := by simpa using hi
      subst this
      exact ⟨rfl, 1, rfl⟩)).1 rfl).2

/-- Two arrays zipped, and a closure that panics: the element of the left array at that index is
dropped with that of the right one, or, if the left closure panics, the right one's is leaked. -/
example :
    let l : Pipe Unit Nat := .array [⟨1, [10]⟩, ⟨0, [11]⟩, ⟨2, [12]⟩]
    let r : Pipe Unit Nat := .array [⟨1, [20]⟩, ⟨0, [21]⟩, ⟨2, [22]⟩]
    (Pipe.zip l (.map r panicOnZero)).Sized 3 ∧
    collectArray 3 (Pipe.zip l (.map r panicOnZero)).iter ⟨(), [], []⟩ =
      ⟨.panic, [12, 22], ⟨(), [], [21, 11, 10, 20]⟩⟩ ∧
    collectArray 3 (Pipe.zip (.map l panicOnZero) r).iter ⟨(), [], []⟩ =
      ⟨.panic, [12, 21, 22], ⟨(), [], [11, 10, 20]⟩⟩ := by
  refine ⟨⟨rfl, rfl⟩, ?_, ?_⟩ <;> decide

end StaticDrop

end Verif
