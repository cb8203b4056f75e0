import Verif.Model.Vector
import Verif.Props.StaticIter
import Mathlib.Algebra.Order.Field.Basic
import Mathlib.Algebra.BigOperators.Fin
import Mathlib.Algebra.Order.BigOperators.Group.Finset
import Mathlib.Data.Rat.Floor
import Mathlib.Tactic.Ring
import Mathlib.Tactic.Linarith
import Mathlib.Tactic.NormNum

/-!
# C77, C78: vectors
-/

namespace Verif

namespace Vect

open StaticIter

variable {α β γ : Type}

/-! ## C77: componentwise operations -/

/-- `out` has `N` components, each computed by `f` from the components of `a` and `b`. -/
def Componentwise (f : α → β → γ) (N : Nat) (a : List α) (b : List β) (out : List γ) : Prop :=
  out.length = N ∧
  ∀ i, i < N → ∃ x y, a[i]? = some x ∧ b[i]? = some y ∧ out[i]? = some (f x y)

/-- `out` has `N` components, each computed by `f` from the component of `a` and the scalar. -/
def ByScalar (f : α → β → γ) (N : Nat) (a : List α) (r : β) (out : List γ) : Prop :=
  out.length = N ∧ ∀ i, i < N → ∃ x, a[i]? = some x ∧ out[i]? = some (f x r)

theorem componentwise_zipWith (f : α → β → γ) {N : Nat} {a : List α} {b : List β}
    (ha : a.length = N) (hb : b.length = N) : Componentwise f N a b (List.zipWith f a b) := by
  refine ⟨by simp [ha, hb], fun i hi => ?_⟩
  have h1 : i < a.length := by omega
  have h2 : i < b.length := by omega
  exact ⟨a[i], b[i], List.getElem?_eq_getElem h1, List.getElem?_eq_getElem h2, by
    rw [List.getElem?_zipWith]; simp [h1, h2]⟩

theorem componentwise_eq {f : α → β → γ} {N : Nat} {a : List α} {b : List β} {o : List γ}
    (ha : a.length = N) (hb : b.length = N) (h : Componentwise f N a b o) :
    o = List.zipWith f a b := by
  apply List.ext_getElem?
  intro i
  by_cases hi : i < N
  · obtain ⟨x, y, h1, h2, h3⟩ := h.2 i hi
    rw [h3, List.getElem?_zipWith]; simp [h1, h2]
  · rw [List.getElem?_eq_none (by rw [h.1]; omega), List.getElem?_eq_none (by simp; omega)]

theorem opVec_eq (f : α → β → γ) {N : Nat} {a : List α} {b : List β} (ha : a.length = N)
    (hb : b.length = N) : opVec f N a b = some (List.zipWith f a b) := by
  have h := C85_zip_map a b (by omega) f
  unfold opVec
  rw [ha] at h
  exact (congrArg (Option.map Prod.fst) h)

theorem opVecRef_eq (f : α → β → γ) {N : Nat} {a : List α} {b : List β} (ha : a.length = N)
    (hb : b.length = N) : opVecRef f N a b = some (List.zipWith f a b) := by
  obtain ⟨l, e, hl, hi⟩ := C85_pointwise N
    (Pipe.map (.zip (.array a) (.ref b)) fun x w => (f x.1 x.2, w)) ⟨ha, hb⟩
  have : opVecRef f N a b = some l := congrArg (Option.map Prod.fst) e
  rw [this]
  congr 1
  apply List.ext_getElem?
  intro i
  by_cases h : i < N
  · rw [hi i h, List.getElem?_zipWith]
    simp only [Pipe.elem]
    rw [List.getElem?_eq_getElem (by omega : i < a.length),
      List.getElem?_eq_getElem (by omega : i < b.length)]
    rfl
  · rw [List.getElem?_eq_none (by omega), List.getElem?_eq_none (by simp; omega)]

theorem assignVec_eq (f : α → β → α) (a : List α) (b : List β) (h : a.length = b.length) :
    assignVec f a b = List.zipWith f a b := by
  induction a generalizing b with
  | nil => cases b <;> simp [assignVec]
  | cons x a ih =>
    cases b with
    | nil => simp at h
    | cons y b => simp [assignVec, ih b (by simpa using h)]

theorem assignScalar_eq (f : α → β → α) (a : List α) (r : β) :
    assignScalar f a r = a.map (f · r) := by
  induction a with
  | nil => rfl
  | cons x a ih => simp [assignScalar, ih]

theorem byScalar_map (f : α → β → γ) {N : Nat} {a : List α} (r : β) (ha : a.length = N) :
    ByScalar f N a r (a.map (f · r)) := by
  refine ⟨by simp [ha], fun i hi => ?_⟩
  have h1 : i < a.length := by omega
  exact ⟨a[i], List.getElem?_eq_getElem h1, by simp [h1]⟩

section ops

variable [Add α] [Sub α] [Mul α] [Div α] [Mod α]

/-- C77: `+`, `-`, `*`, `/`, `%` of two vectors. -/
theorem C77_ops (N : Nat) (a b : List α) (ha : a.length = N) (hb : b.length = N) :
    (∃ o, add N a b = some o ∧ Componentwise (fun x y => x + y) N a b o) ∧
    (∃ o, sub N a b = some o ∧ Componentwise (fun x y => x - y) N a b o) ∧
    (∃ o, mul N a b = some o ∧ Componentwise (fun x y => x * y) N a b o) ∧
    (∃ o, div N a b = some o ∧ Componentwise (fun x y => x / y) N a b o) ∧
    (∃ o, rem N a b = some o ∧ Componentwise (fun x y => x % y) N a b o) := by
  refine ⟨?_, ?_, ?_, ?_, ?_⟩ <;>
    exact ⟨_, opVec_eq _ ha hb, componentwise_zipWith _ ha hb⟩

example := C77_ops 2 [7, 2] [3, (-5 : Int)] rfl rfl

/-- C77: the same with a reference on the right. -/
theorem C77_ops_ref (N : Nat) (a b : List α) (ha : a.length = N) (hb : b.length = N) :
    (∃ o, addRef N a b = some o ∧ Componentwise (fun x y => x + y) N a b o) ∧
    (∃ o, subRef N a b = some o ∧ Componentwise (fun x y => x - y) N a b o) ∧
    (∃ o, mulRef N a b = some o ∧ Componentwise (fun x y => x * y) N a b o) ∧
    (∃ o, divRef N a b = some o ∧ Componentwise (fun x y => x / y) N a b o) ∧
    (∃ o, remRef N a b = some o ∧ Componentwise (fun x y => x % y) N a b o) := by
  refine ⟨?_, ?_, ?_, ?_, ?_⟩ <;>
    exact ⟨_, opVecRef_eq _ ha hb, componentwise_zipWith _ ha hb⟩

/-- C77: the assigning forms. -/
theorem C77_assign (N : Nat) (a b : List α) (ha : a.length = N) (hb : b.length = N) :
    Componentwise (fun x y => x + y) N a b (addAssign a b) ∧
    Componentwise (fun x y => x - y) N a b (subAssign a b) ∧
    Componentwise (fun x y => x * y) N a b (mulAssign a b) ∧
    Componentwise (fun x y => x / y) N a b (divAssign a b) ∧
    Componentwise (fun x y => x % y) N a b (remAssign a b) := by
  refine ⟨?_, ?_, ?_, ?_, ?_⟩ <;>
    (unfold_projs; simp only [addAssign, subAssign, mulAssign, divAssign, remAssign]
     rw [assignVec_eq _ _ _ (by omega)]; exact componentwise_zipWith _ ha hb)

/-- C77: a scalar on the right, both forms. -/
theorem C77_scalar (N : Nat) (a : List α) (r : α) (ha : a.length = N) :
    (ByScalar (fun x y => x + y) N a r (addS a r) ∧ ByScalar (fun x y => x - y) N a r (subS a r) ∧
     ByScalar (fun x y => x * y) N a r (mulS a r) ∧ ByScalar (fun x y => x / y) N a r (divS a r) ∧
     ByScalar (fun x y => x % y) N a r (remS a r)) ∧
    ByScalar (fun x y => x + y) N a r (addAssignS a r) ∧
    ByScalar (fun x y => x - y) N a r (subAssignS a r) ∧
    ByScalar (fun x y => x * y) N a r (mulAssignS a r) ∧
    ByScalar (fun x y => x / y) N a r (divAssignS a r) ∧
    ByScalar (fun x y => x % y) N a r (remAssignS a r) := by
  refine ⟨⟨?_, ?_, ?_, ?_, ?_⟩, ?_, ?_, ?_, ?_, ?_⟩
  iterate 5 exact byScalar_map _ r ha
  all_goals
    simp only [addAssignS, subAssignS, mulAssignS, divAssignS, remAssignS]
    rw [assignScalar_eq]; exact byScalar_map _ r ha

end ops

theorem gather_congr {W T X O : Type} (sh : Shape T X O) (f g : Nat → W → Option (T × W))
    (is : List Nat) (h : ∀ i ∈ is, ∀ w, f i w = g i w) (acc : List X) (w : W) :
    sh.gather f is acc w = sh.gather g is acc w := by
  induction is generalizing acc w with
  | nil => rfl
  | cons i is ih =>
    have ih := ih (fun j hj => h j (by simp [hj]))
    unfold Shape.gather
    rw [h i (by simp)]
    congr 1
    funext r
    split
    · exact ih _ _
    · rfl

theorem checkedOp_eq (f : α → α → Option γ) {N : Nat} {a b : List α} (ha : a.length = N)
    (hb : b.length = N) : checkedOp f N a b = some ((List.zipWith f a b).mapM id) := by
  have h1 := (C86_collect N (Shape.option (.array γ))
    (Pipe.map (.zip (.array a) (.array b)) fun p w => (f p.1 p.2, w) : Pipe Unit _) ⟨ha, hb⟩ ()).1
  have hl : (List.zipWith f a b).length = N := by simp [ha, hb]
  have h2 := (C86_collect N (Shape.option (.array γ))
    (Pipe.array (List.zipWith f a b) : Pipe Unit _) hl ()).1
  have h3 := (C86_one_layer (E := Unit) (List.zipWith f a b) []).1
  rw [hl] at h3
  have hc : (Shape.option (.array γ)).gather (Pipe.map (.zip (.array a) (.array b))
      fun p w => (f p.1 p.2, w) : Pipe Unit _).elem (List.range N) [] () =
      (Shape.option (.array γ)).gather (Pipe.array (List.zipWith f a b) : Pipe Unit _).elem
        (List.range N) [] () := by
    apply gather_congr
    intro i hi w
    have hi : i < N := List.mem_range.mp hi
    simp only [Pipe.elem, List.getElem?_zipWith]
    rw [List.getElem?_eq_getElem (by omega : i < a.length),
      List.getElem?_eq_getElem (by omega : i < b.length)]
    rfl
  have := h1.trans (hc.trans (h2.symm.trans h3))
  exact congrArg (Option.map Prod.fst) this

theorem mapM_id_none (l : List (Option γ)) : l.mapM id = none ↔ none ∈ l := by
  induction l with
  | nil => simp
  | cons x l ih =>
    rw [List.mapM_cons]
    cases x with
    | none => simp
    | some x =>
      cases hm : l.mapM id with
      | none => simp [hm] at ih ⊢; exact ih
      | some l' => simp [hm] at ih ⊢; exact ih

theorem mapM_id_some (l : List (Option γ)) (o : List γ) : l.mapM id = some o ↔ l = o.map some := by
  induction l generalizing o with
  | nil => cases o <;> simp
  | cons x l ih =>
    rw [List.mapM_cons]
    cases x with
    | none => cases o <;> simp
    | some x =>
      cases o with
      | nil => cases hm : l.mapM id <;> simp
      | cons y o =>
        cases hm : l.mapM id with
        | none =>
          simp
          intro _ h
          have := (ih o).mpr h
          rw [hm] at this
          simp at this
        | some l' =>
          have := ih o
          rw [hm] at this
          simp at this ⊢
          rw [this]
          exact fun _ => Iff.rfl

/-- C77: a checked operation gives a vector exactly if every component succeeds, and then that of the
components. -/
theorem C77_checked (f : α → α → Option γ) (N : Nat) (a b : List α) (ha : a.length = N)
    (hb : b.length = N) :
    ∃ r, checkedOp f N a b = some r ∧
      (r = none ↔ ∃ (i : Nat) (x y : α), a[i]? = some x ∧ b[i]? = some y ∧ f x y = none) ∧
      ∀ o, r = some o ↔ o.length = N ∧
        ∀ i, i < N → ∃ x y v, a[i]? = some x ∧ b[i]? = some y ∧ f x y = some v ∧
          o[i]? = some v := by
  refine ⟨_, checkedOp_eq f ha hb, ?_, fun o => ?_⟩
  · rw [mapM_id_none, List.mem_iff_getElem?]
    constructor
    · rintro ⟨i, hi⟩
      rw [List.getElem?_zipWith] at hi
      cases h1 : a[i]? with
      | none => simp [h1] at hi
      | some x =>
        cases h2 : b[i]? with
        | none => simp [h1, h2] at hi
        | some y => exact ⟨i, x, y, h1, h2, by simpa [h1, h2] using hi⟩
    · rintro ⟨i, x, y, h1, h2, h3⟩
      exact ⟨i, by rw [List.getElem?_zipWith]; simp [h1, h2, h3]⟩
  · rw [mapM_id_some]
    constructor
    · intro h
      have hl : o.length = N := by
        have := congrArg List.length h
        simp [ha, hb] at this
        omega
      refine ⟨hl, fun i hi => ?_⟩
      have hg := congrArg (·[i]?) h
      simp only [List.getElem?_zipWith, List.getElem?_map,
        List.getElem?_eq_getElem (by omega : i < a.length),
        List.getElem?_eq_getElem (by omega : i < b.length),
        List.getElem?_eq_getElem (by omega : i < o.length)] at hg
      exact ⟨a[i], b[i], o[i], List.getElem?_eq_getElem _, List.getElem?_eq_getElem _,
        by simpa using hg, List.getElem?_eq_getElem _⟩
    · rintro ⟨hl, h⟩
      apply List.ext_getElem?
      intro i
      by_cases hi : i < N
      · obtain ⟨x, y, v, h1, h2, h3, h4⟩ := h i hi
        rw [List.getElem?_zipWith, List.getElem?_map]
        simp [h1, h2, h3, h4]
      · rw [List.getElem?_eq_none (by simp; omega), List.getElem?_eq_none (by simp; omega)]

/-- C77: constructors, sums, products and the zero test. -/
theorem C77_others (N : Nat) (a : List α) (ha : a.length = N) (v : α) :
    (fromScalar N v = List.replicate N v) ∧
    (∀ [Zero α], zeroed N = List.replicate N (0 : α)) ∧
    (∀ [Zero α] [Add α], sum N a = some (a.foldl (· + ·) 0)) ∧
    (∀ [One α] [Mul α], product N a = some (a.foldl (· * ·) 1)) ∧
    (∀ [Zero α] [DecidableEq α], isZero N a = some (decide (∀ x ∈ a, x = 0))) ∧
    intoRow a = [a] ∧ intoColumn N a = some (a.map fun x => [x]) := by
  have hs : (Pipe.array a : Pipe Unit α).Sized N := ha
  obtain ⟨l, w', er, _, hsum, hprod⟩ := C85_fold (γ := α) N (Pipe.array a : Pipe Unit α) hs ()
  have hl : l = a := by
    apply List.ext_getElem?
    intro i
    by_cases h : i < N
    · rw [runAll_unit _ _ l er i i (by simp [h])]
      simp only [Pipe.elem]
      rw [List.getElem?_eq_getElem (by omega : i < a.length)]; rfl
    · have hll : l.length = N := by
        obtain ⟨l2, w2, e2, h2⟩ := runAll_total (elem_total N _ hs) (List.range N)
          (fun i hi => List.mem_range.mp hi) ()
        rw [er] at e2
        simp only [Option.some.injEq, Prod.mk.injEq] at e2
        rw [e2.1, h2, List.length_range]
      rw [List.getElem?_eq_none (by omega), List.getElem?_eq_none (by omega)]
  subst hl
  refine ⟨?_, ?_, ?_, ?_, ?_, rfl, ?_⟩
  · simp [fromScalar, List.map_const']
  · intro _; simp [zeroed, List.map_const']
  · intro _ _
    exact congrArg (Option.map Prod.fst) hsum
  · intro _ _
    exact congrArg (Option.map Prod.fst) hprod
  · intro _ _
    have hr : (Pipe.ref l : Pipe Unit α).Sized N := ha
    obtain ⟨l', e, _, h⟩ := C85_any_all_pure N (Pipe.ref l : Pipe Unit α) hr
      (fun x => decide (x = 0))
    have hl' : l' = l := by
      obtain ⟨l2, e2, hl2, h2⟩ := C85_pointwise N (Pipe.ref l : Pipe Unit α) hr
      rw [e] at e2
      simp only [Option.some.injEq, Prod.mk.injEq, and_true] at e2
      subst e2
      apply List.ext_getElem?
      intro i
      by_cases hi : i < N
      · rw [h2 i hi]
        simp only [Pipe.elem]
        rw [List.getElem?_eq_getElem (by omega : i < l.length)]; rfl
      · rw [List.getElem?_eq_none (by omega), List.getElem?_eq_none (by omega)]
    subst hl'
    have := congrArg (Option.map Prod.fst) h
    have h3 : isZero N l' = some (l'.all fun x => decide (x = 0)) := this
    rw [h3]
    congr 1
    rw [Bool.eq_iff_iff]
    simp
  · obtain ⟨o, e, ho, hi⟩ := C85_pointwise N
      (Pipe.map (.array l) fun i w => ([i], w) : Pipe Unit (List α)) hs
    have : intoColumn N l = some o := congrArg (Option.map Prod.fst) e
    rw [this]
    congr 1
    apply List.ext_getElem?
    intro i
    by_cases h : i < N
    · rw [hi i h, List.getElem?_map]
      simp only [Pipe.elem]
      rw [List.getElem?_eq_getElem (by omega : i < l.length)]; rfl
    · rw [List.getElem?_eq_none (by omega), List.getElem?_eq_none (by simp; omega)]

example : add 3 [1, 2, 3] [10, 20, 30] = some [11, 22, (33 : Int)] ∧
    remAssign [7, 8] [4, 3] = [3, (2 : Int)] ∧ subS [1, 2] 5 = [-4, (-3 : Int)] := by decide
example : checkedOp (fun a b => if a + b < 256 then some (a + b) else none) 2 [200, 1] [55, 2] =
      some (some [255, 3]) ∧
    checkedOp (fun a b => if a + b < 256 then some (a + b) else none) 2 [200, 1] [56, 2] =
      some none := by decide

/-! ## C78: dot product, cross product, distance -/

theorem stdZip_map (f : α → β → γ) (a : List α) (b : List β) :
    (stdZip a b).map (fun p => f p.1 p.2) = List.zipWith f a b := by
  induction a generalizing b with
  | nil => cases b <;> rfl
  | cons x a ih => cases b with
    | nil => rfl
    | cons y b => simp [stdZip, ih]

theorem foldl_add_ofFn {K : Type} [AddCommMonoid K] {N : Nat} (f : Fin N → K) :
    (List.ofFn f).foldl (fun acc v => acc + v) 0 = ∑ i, f i := by
  rw [← List.sum_eq_foldl, List.sum_ofFn]

theorem zipWith_ofFn {N : Nat} (f : α → β → γ) (x : Fin N → α) (y : Fin N → β) :
    List.zipWith f (List.ofFn x) (List.ofFn y) = List.ofFn fun i => f (x i) (y i) := by
  apply List.ext_getElem?
  intro i
  rw [List.getElem?_zipWith]
  by_cases h : i < N <;> simp [h, List.getElem?_ofFn]

variable {K : Type} [Field K]

/-- C78: the dot product is the sum of the products of the components. -/
theorem C78_dot {N : Nat} (x y : Fin N → K) :
    dotProduct (List.ofFn x) (List.ofFn y) = ∑ i, x i * y i := by
  unfold dotProduct
  rw [stdZip_map (fun a b => a * b), zipWith_ofFn, foldl_add_ofFn]

example : dotProduct (List.ofFn ![1, 2, 3]) (List.ofFn ![4, 5, (-6 : Int)]) = -4 := by decide

theorem exists_ofFn {N : Nat} (a : List K) (ha : a.length = N) : ∃ x : Fin N → K, a = List.ofFn x := by
  subst ha
  exact ⟨fun i => a[i], by simp⟩

theorem add_ofFn {N : Nat} (x y : Fin N → K) :
    add N (List.ofFn x) (List.ofFn y) = some (List.ofFn fun i => x i + y i) := by
  unfold add
  rw [opVec_eq _ (by simp) (by simp), zipWith_ofFn]

theorem sub_ofFn {N : Nat} (x y : Fin N → K) :
    sub N (List.ofFn x) (List.ofFn y) = some (List.ofFn fun i => x i - y i) := by
  unfold sub
  rw [opVec_eq _ (by simp) (by simp), zipWith_ofFn]

theorem mulS_ofFn {N : Nat} (x : Fin N → K) (k : K) :
    mulS (List.ofFn x) k = List.ofFn fun i => x i * k := by
  simp [mulS, opScalar, List.map_ofFn, Function.comp_def]

/-- C78: `dot_product` is symmetric and linear in the first (hence in both) arguments. -/
theorem C78_dot_bilinear (N : Nat) (a b c : List K) (k : K) (ha : a.length = N)
    (hb : b.length = N) (hc : c.length = N) :
    dotProduct a b = dotProduct b a ∧
    (∃ s, add N a b = some s ∧ dotProduct s c = dotProduct a c + dotProduct b c) ∧
    dotProduct (mulS a k) c = k * dotProduct a c := by
  obtain ⟨x, rfl⟩ := exists_ofFn a ha
  obtain ⟨y, rfl⟩ := exists_ofFn b hb
  obtain ⟨z, rfl⟩ := exists_ofFn c hc
  refine ⟨?_, ⟨_, add_ofFn x y, ?_⟩, ?_⟩
  · rw [C78_dot, C78_dot]
    exact Finset.sum_congr rfl fun i _ => mul_comm _ _
  · rw [C78_dot, C78_dot, C78_dot, ← Finset.sum_add_distrib]
    exact Finset.sum_congr rfl fun i _ => add_mul _ _ _
  · rw [mulS_ofFn, C78_dot, C78_dot, Finset.mul_sum]
    exact Finset.sum_congr rfl fun i _ => by ring

theorem list3 (a : List K) (ha : a.length = 3) : ∃ x y z, a = [x, y, z] := by
  match a, ha with
  | [x, y, z], _ => exact ⟨x, y, z, rfl⟩

/-- C78: the cross product is orthogonal to both factors, anticommutative, linear and satisfies
Lagrange's identity; `x × y = z` fixes its orientation. -/
theorem C78_cross (a b c : List K) (k : K) (ha : a.length = 3) (hb : b.length = 3)
    (hc : c.length = 3) :
    dotProduct a (cross a b) = 0 ∧ dotProduct b (cross a b) = 0 ∧
    cross b a = mulS (cross a b) (-1) ∧ cross (mulS a k) b = mulS (cross a b) k ∧
    (∃ s t, add 3 a b = some s ∧ add 3 (cross a c) (cross b c) = some t ∧ cross s c = t) ∧
    dotProduct (cross a b) (cross a b) =
      dotProduct a a * dotProduct b b - dotProduct a b * dotProduct a b ∧
    cross [1, 0, 0] [0, 1, 0] = [0, 0, (1 : K)] ∧ cross [0, 1, 0] [0, 0, 1] = [1, 0, (0 : K)] ∧
    cross [0, 0, 1] [1, 0, 0] = [0, 1, (0 : K)] := by
  obtain ⟨x, y, z, rfl⟩ := list3 a ha
  obtain ⟨x', y', z', rfl⟩ := list3 b hb
  obtain ⟨x'', y'', z'', rfl⟩ := list3 c hc
  refine ⟨?_, ?_, ?_, ?_, ⟨_, _, opVec_eq _ rfl rfl, opVec_eq _ rfl rfl, ?_⟩, ?_, ?_, ?_, ?_⟩
  · simp only [dotProduct, cross, stdZip, List.map, List.foldl]; ring
  · simp only [dotProduct, cross, stdZip, List.map, List.foldl]; ring
  · simp only [cross, mulS, opScalar, List.map, List.cons.injEq, and_true]
    refine ⟨?_, ?_, ?_⟩ <;> ring
  · simp only [cross, mulS, opScalar, List.map, List.cons.injEq, and_true]
    refine ⟨?_, ?_, ?_⟩ <;> ring
  · simp only [cross, List.zipWith, List.cons.injEq, and_true]
    refine ⟨?_, ?_, ?_⟩ <;> ring
  · simp only [dotProduct, cross, stdZip, List.map, List.foldl]; ring
  all_goals simp [cross]

/-- C78: `distance_squared` is the dot product of the difference with itself, and symmetric; `pow` is
the power of the component type. -/
theorem C78_distance (pow : K → K → K) (hpow : ∀ x, pow x 2 = x * x) (N : Nat) (a b : List K)
    (ha : a.length = N) (hb : b.length = N) :
    (∃ d, sub N a b = some d ∧ distanceSquared pow a b = dotProduct d d) ∧
    distanceSquared pow a b = distanceSquared pow b a := by
  obtain ⟨x, rfl⟩ := exists_ofFn a ha
  obtain ⟨y, rfl⟩ := exists_ofFn b hb
  have h : ∀ x y : Fin N → K, distanceSquared pow (List.ofFn x) (List.ofFn y) =
      ∑ i, (x i - y i) * (x i - y i) := by
    intro x y
    unfold distanceSquared
    simp only [one_add_one_eq_two, hpow]
    rw [stdZip_map (fun a b => (a - b) * (a - b)), zipWith_ofFn, foldl_add_ofFn]
  refine ⟨⟨_, sub_ofFn x y, ?_⟩, ?_⟩
  · rw [h, C78_dot]
  · rw [h, h]
    exact Finset.sum_congr rfl fun i _ => by ring

/-- C78: the distance is nonnegative and zero exactly for equal vectors; `distance` is its square
root. -/
theorem C78_distance_zero [LinearOrder K] [IsStrictOrderedRing K] (pow : K → K → K)
    (hpow : ∀ x, pow x 2 = x * x) (sqrt : K → K)
    (hsqrt : ∀ x, 0 ≤ x → 0 ≤ sqrt x ∧ sqrt x * sqrt x = x) (N : Nat) (a b : List K)
    (ha : a.length = N) (hb : b.length = N) :
    0 ≤ distanceSquared pow a b ∧ (distanceSquared pow a b = 0 ↔ a = b) ∧
    0 ≤ distance pow sqrt a b ∧
    distance pow sqrt a b * distance pow sqrt a b = distanceSquared pow a b ∧
    (distance pow sqrt a b = 0 ↔ a = b) := by
  obtain ⟨x, rfl⟩ := exists_ofFn a ha
  obtain ⟨y, rfl⟩ := exists_ofFn b hb
  have h : distanceSquared pow (List.ofFn x) (List.ofFn y) = ∑ i, (x i - y i) * (x i - y i) := by
    unfold distanceSquared
    simp only [one_add_one_eq_two, hpow]
    rw [stdZip_map (fun a b => (a - b) * (a - b)), zipWith_ofFn, foldl_add_ofFn]
  have h0 : 0 ≤ distanceSquared pow (List.ofFn x) (List.ofFn y) := by
    rw [h]; exact Finset.sum_nonneg fun i _ => mul_self_nonneg _
  have hz : distanceSquared pow (List.ofFn x) (List.ofFn y) = 0 ↔ List.ofFn x = List.ofFn y := by
    rw [h, Finset.sum_eq_zero_iff_of_nonneg fun i _ => mul_self_nonneg _]
    constructor
    · intro hh
      congr 1
      funext i
      have := mul_self_eq_zero.mp (hh i (Finset.mem_univ i))
      exact sub_eq_zero.mp this
    · intro hh i _
      have := List.ofFn_injective hh
      rw [this]; ring
  have hs := hsqrt _ h0
  refine ⟨h0, hz, hs.1, hs.2, ?_⟩
  rw [← hz, ← hs.2]
  exact mul_self_eq_zero.symm

example : dotProduct [1, 2, 3] [4, 5, 6] = (32 : ℚ) ∧ cross [1, 2, 3] [4, 5, 6] = [-3, 6, (-3 : ℚ)] ∧
    distanceSquared (fun x _ => x * x) [1, 2] [4, 6] = (25 : ℚ) := by
  norm_num [dotProduct, cross, distanceSquared, stdZip]

end Vect

end Verif
