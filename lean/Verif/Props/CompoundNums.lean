import Verif.Spec.CompoundNums
import Verif.Model.CheckedNum
import Verif.Lemmas.Compound
import Verif.Props.RealPrograms
import Verif.Props.Programs

/-!
# Compound types over the library's own numbers (C134)
-/

namespace Verif

/-! ## C134: vectors, matrices and complex numbers of rational numbers -/

namespace RatM

open Prim

instance : Zero Prog := ⟨.new 0 1⟩
instance : One Prog := ⟨.new 1 1⟩
instance : Add Prog := ⟨.add⟩
instance : Sub Prog := ⟨.sub⟩
instance : Mul Prog := ⟨.mul⟩
instance : Div Prog := ⟨.div⟩

/-- A component that is computed by an expression. -/
abbrev comp (m : Mode) (p : Prim) (e : Prog) : Comp (ops m p) := ⟨e.run m p⟩

/-- The component is what the expression evaluates to. -/
private def Runs (m : Mode) (p : Prim) (c : Comp (ops m p)) (e : Prog) : Prop := c = comp m p e

private theorem runs_zero (m : Mode) (p : Prim) : Runs m p 0 0 := by
  change (⟨_⟩ : Comp _) = ⟨newUnwrap p 0 1⟩
  rw [newUnwrap_eq (by decide)]; rfl

private theorem runs_one (m : Mode) (p : Prim) : Runs m p 1 1 := by
  change (⟨_⟩ : Comp _) = ⟨newUnwrap p 1 1⟩
  rw [newUnwrap_eq (by decide)]; rfl

private theorem runs_add {m : Mode} {p : Prim} {a b : Comp (ops m p)} {x y : Prog}
    (ha : Runs m p a x) (hb : Runs m p b y) : Runs m p (a + b) (x + y) := by
  unfold Runs at *; rw [ha, hb]; rfl

private theorem runs_sub {m : Mode} {p : Prim} {a b : Comp (ops m p)} {x y : Prog}
    (ha : Runs m p a x) (hb : Runs m p b y) : Runs m p (a - b) (x - y) := by
  unfold Runs at *; rw [ha, hb]; rfl

private theorem runs_mul {m : Mode} {p : Prim} {a b : Comp (ops m p)} {x y : Prog}
    (ha : Runs m p a x) (hb : Runs m p b y) : Runs m p (a * b) (x * y) := by
  unfold Runs at *; rw [ha, hb]; rfl

private theorem runs_semi (m : Mode) (p : Prim) : SemiRel (Runs m p) :=
  ⟨runs_zero m p, runs_add, runs_mul⟩

private theorem zero_one_inRange {p : Prim} (hb : 2 ≤ p.bits) : p.InRange 0 ∧ p.InRange 1 := by
  have hmax : 1 ≤ p.maxV := by
    have h1 : (2 : ℤ) ≤ 2 ^ (p.bits - 1) := by
      calc (2 : ℤ) = 2 ^ 1 := by norm_num
        _ ≤ 2 ^ (p.bits - 1) := pow_le_pow_right₀ (by norm_num) (by omega)
    have h2 : (2 : ℤ) ^ (p.bits - 1) ≤ 2 ^ p.bits := pow_le_pow_right₀ (by norm_num) (by omega)
    unfold maxV
    split <;> omega
  obtain ⟨b1, b2, _⟩ := bounds (p := p) (by omega)
  exact ⟨⟨b1, b2⟩, ⟨by omega, hmax⟩⟩

private theorem sf_zero {p : Prim} (hb : 2 ≤ p.bits) : Prog.StandsFor p 0 0 := by
  obtain ⟨h0, h1⟩ := zero_one_inRange hb
  refine ⟨⟨h0, h1⟩, ?_⟩
  change Prog.denote (.new 0 1) = _
  simp [Prog.denote]

private theorem sf_one {p : Prim} (hb : 2 ≤ p.bits) : Prog.StandsFor p 1 1 := by
  obtain ⟨h0, h1⟩ := zero_one_inRange hb
  refine ⟨⟨h1, h1⟩, ?_⟩
  change Prog.denote (.new 1 1) = _
  simp [Prog.denote]

private theorem sf_add {p : Prim} {a b : Prog} {x y : ℚ} (ha : a.StandsFor p x) (hb : b.StandsFor p y) :
    Prog.StandsFor p (a + b) (x + y) :=
  ⟨⟨ha.1, hb.1⟩, by change Prog.denote (.add a b) = _; rw [Prog.denote, ha.2, hb.2]; rfl⟩

private theorem sf_sub {p : Prim} {a b : Prog} {x y : ℚ} (ha : a.StandsFor p x) (hb : b.StandsFor p y) :
    Prog.StandsFor p (a - b) (x - y) :=
  ⟨⟨ha.1, hb.1⟩, by change Prog.denote (.sub a b) = _; rw [Prog.denote, ha.2, hb.2]; rfl⟩

private theorem sf_mul {p : Prim} {a b : Prog} {x y : ℚ} (ha : a.StandsFor p x) (hb : b.StandsFor p y) :
    Prog.StandsFor p (a * b) (x * y) :=
  ⟨⟨ha.1, hb.1⟩, by change Prog.denote (.mul a b) = _; rw [Prog.denote, ha.2, hb.2]; rfl⟩

private theorem sf_semi {p : Prim} (hb : 2 ≤ p.bits) : SemiRel (Prog.StandsFor p) :=
  ⟨sf_zero hb, sf_add, sf_mul⟩

private theorem outcome {p : Prim} (hb : 2 ≤ p.bits) {c : Mode → Res RatM} {e : Prog} (he : e.Typed p)
    (h : ∀ m, c m = e.run m p) : Outcome p c e.denote := by
  obtain rfl : c = fun m => e.run m p := funext h
  exact ⟨fun m => C125_rat_ends m p hb e he, fun v hv => C125_rat_debug p hb e he v hv,
    C125_rat_release p e⟩

private theorem outcome_sf {p : Prim} (hb : 2 ≤ p.bits) {c : Mode → Res RatM} {e : Prog} {q : ℚ}
    (he : e.StandsFor p q) (h : ∀ m, c m = e.run m p) : Outcome p c (some q) := by
  rw [← he.2]; exact outcome hb he.1 h

/-- A quotient of two components. -/
private theorem outcome_div {p : Prim} (hb : 2 ≤ p.bits) {c : Mode → Res RatM} {a b : Prog} {x y : ℚ}
    (ha : a.StandsFor p x) (hb' : b.StandsFor p y) (h : ∀ m, c m = (a / b).run m p) :
    Outcome p c (if y = 0 then none else some (x / y)) := by
  have : (Prog.div a b).denote = if y = 0 then none else some (x / y) := by
    rw [Prog.denote, ha.2, hb'.2]; rfl
  rw [← this]
  exact outcome hb (e := .div a b) ⟨ha.1, hb'.1⟩ h

/-- A vector of computed rational numbers. -/
abbrev vecOf (m : Mode) (p : Prim) {N : Nat} (a : Fin N → Prog) : List (Comp (ops m p)) :=
  List.ofFn fun i => comp m p (a i)

/-- C134 for vectors: each component of `a + b`, `a - b`, `a * b` and `a / b`. -/
theorem C134_vector_ops (p : Prim) (hp : 2 ≤ p.bits) {N : Nat} (a b : Fin N → Prog) (x y : Fin N → ℚ)
    (ha : ∀ i, (a i).StandsFor p (x i)) (hb : ∀ i, (b i).StandsFor p (y i)) :
    (∃ o : ∀ m, Fin N → Comp (ops m p),
      (∀ m, Vect.add N (vecOf m p a) (vecOf m p b) = some (List.ofFn (o m))) ∧
      ∀ i, Outcome p (fun m => (o m i).res) (some (x i + y i))) ∧
    (∃ o : ∀ m, Fin N → Comp (ops m p),
      (∀ m, Vect.sub N (vecOf m p a) (vecOf m p b) = some (List.ofFn (o m))) ∧
      ∀ i, Outcome p (fun m => (o m i).res) (some (x i - y i))) ∧
    (∃ o : ∀ m, Fin N → Comp (ops m p),
      (∀ m, Vect.mul N (vecOf m p a) (vecOf m p b) = some (List.ofFn (o m))) ∧
      ∀ i, Outcome p (fun m => (o m i).res) (some (x i * y i))) ∧
    (∃ o : ∀ m, Fin N → Comp (ops m p),
      (∀ m, Vect.div N (vecOf m p a) (vecOf m p b) = some (List.ofFn (o m))) ∧
      ∀ i, Outcome p (fun m => (o m i).res) (if y i = 0 then none else some (x i / y i))) := by
  have op : ∀ (m : Mode) (f : Comp (ops m p) → Comp (ops m p) → Comp (ops m p)),
      Vect.opVec f N (vecOf m p a) (vecOf m p b) =
        some (List.ofFn fun i => f (comp m p (a i)) (comp m p (b i))) := fun m f => by
    rw [Vect.opVec_eq f (by simp) (by simp), Vect.zipWith_ofFn]
  refine ⟨⟨_, fun m => op m _, fun i => ?_⟩, ⟨_, fun m => op m _, fun i => ?_⟩,
    ⟨_, fun m => op m _, fun i => ?_⟩, ⟨_, fun m => op m _, fun i => ?_⟩⟩
  · exact outcome_sf hp (sf_add (ha i) (hb i)) fun m => rfl
  · exact outcome_sf hp (sf_sub (ha i) (hb i)) fun m => rfl
  · exact outcome_sf hp (sf_mul (ha i) (hb i)) fun m => rfl
  · exact outcome_div hp (ha i) (hb i) fun m => rfl

private theorem runs_vec (m : Mode) (p : Prim) {N : Nat} (a : Fin N → Prog) :
    List.Forall₂ (Runs m p) (vecOf m p a) (List.ofFn a) := by
  rw [List.forall₂_iff_get]
  exact ⟨by simp, fun i h1 h2 => by simp [Runs]⟩

private theorem sf_vec {p : Prim} {N : Nat} {a : Fin N → Prog} {x : Fin N → ℚ}
    (ha : ∀ i, (a i).StandsFor p (x i)) :
    List.Forall₂ (Prog.StandsFor p) (List.ofFn a) (List.ofFn x) := by
  rw [List.forall₂_iff_get]
  exact ⟨by simp, fun i h1 h2 => by simpa using ha _⟩

/-- C134 for `dot_product`. -/
theorem C134_dot (p : Prim) (hp : 2 ≤ p.bits) {N : Nat} (a b : Fin N → Prog) (x y : Fin N → ℚ)
    (ha : ∀ i, (a i).StandsFor p (x i)) (hb : ∀ i, (b i).StandsFor p (y i)) :
    Outcome p (fun m => (Vect.dotProduct (vecOf m p a) (vecOf m p b)).res) (some (∑ i, x i * y i)) := by
  have h1 := (sf_semi hp).dot (sf_vec ha) (sf_vec hb)
  rw [Vect.C78_dot] at h1
  exact outcome_sf hp h1 fun m => by
    rw [show Vect.dotProduct _ _ = _ from (runs_semi m p).dot (runs_vec m p a) (runs_vec m p b)]

/-- C134 for `sum`. -/
theorem C134_sum (p : Prim) (hp : 2 ≤ p.bits) {N : Nat} (a : Fin N → Prog) (x : Fin N → ℚ)
    (ha : ∀ i, (a i).StandsFor p (x i)) :
    ∃ s : ∀ m, Comp (ops m p), (∀ m, Vect.sum N (vecOf m p a) = some (s m)) ∧
      Outcome p (fun m => (s m).res) (some (∑ i, x i)) := by
  refine ⟨fun m => (vecOf m p a).foldl (· + ·) 0,
    fun m => (Vect.C77_others N (vecOf m p a) (by simp) 0).2.2.1, ?_⟩
  have h1 := foldl_rel (fun h h' => sf_add (p := p) h h') (sf_vec ha) (sf_zero hp)
  rw [Vect.foldl_add_ofFn] at h1
  exact outcome_sf hp h1 fun m => congrArg Comp.res
    (foldl_rel (fun h h' => runs_add (p := p) h h') (runs_vec m p a) (runs_zero m p))

/-- C134 for `product`. -/
theorem C134_product (p : Prim) (hp : 2 ≤ p.bits) {N : Nat} (a : Fin N → Prog) (x : Fin N → ℚ)
    (ha : ∀ i, (a i).StandsFor p (x i)) :
    ∃ s : ∀ m, Comp (ops m p), (∀ m, Vect.product N (vecOf m p a) = some (s m)) ∧
      Outcome p (fun m => (s m).res) (some (∏ i, x i)) := by
  refine ⟨fun m => (vecOf m p a).foldl (· * ·) 1,
    fun m => (Vect.C77_others N (vecOf m p a) (by simp) 0).2.2.2.1, ?_⟩
  have h1 := foldl_mul_rel (fun h h' => sf_mul (p := p) h h') (sf_vec ha) (sf_one hp)
  have e : (List.ofFn x).foldl (fun a v => a * v) 1 = ∏ i, x i := by
    rw [← List.prod_ofFn, List.prod_eq_foldl]
  rw [e] at h1
  exact outcome_sf hp h1 fun m => congrArg Comp.res
    (foldl_mul_rel (fun h h' => runs_mul (p := p) h h') (runs_vec m p a) (runs_one m p))

/-- C134 for `cross`. -/
theorem C134_cross (p : Prim) (hp : 2 ≤ p.bits) (a b : Fin 3 → Prog) (x y : Fin 3 → ℚ)
    (ha : ∀ i, (a i).StandsFor p (x i)) (hb : ∀ i, (b i).StandsFor p (y i)) :
    ∃ c₁ c₂ c₃ : ∀ m, Comp (ops m p),
      (∀ m, Vect.cross (vecOf m p a) (vecOf m p b) = [c₁ m, c₂ m, c₃ m]) ∧
      Outcome p (fun m => (c₁ m).res) (some (x 1 * y 2 - x 2 * y 1)) ∧
      Outcome p (fun m => (c₂ m).res) (some (x 2 * y 0 - x 0 * y 2)) ∧
      Outcome p (fun m => (c₃ m).res) (some (x 0 * y 1 - x 1 * y 0)) :=
  ⟨_, _, _, fun _ => rfl,
    outcome_sf hp (sf_sub (sf_mul (ha 1) (hb 2)) (sf_mul (ha 2) (hb 1))) fun _ => rfl,
    outcome_sf hp (sf_sub (sf_mul (ha 2) (hb 0)) (sf_mul (ha 0) (hb 2))) fun _ => rfl,
    outcome_sf hp (sf_sub (sf_mul (ha 0) (hb 1)) (sf_mul (ha 1) (hb 0))) fun _ => rfl⟩

/-- A complex number with computed parts. -/
abbrev complexOf (m : Mode) (p : Prim) (a b : Prog) : Complex (Comp (ops m p)) :=
  ⟨comp m p a, comp m p b⟩

/-- C134 for complex numbers: `+`, `-`, `*`, `/` and `abs_squared`. -/
theorem C134_complex (p : Prim) (hp : 2 ≤ p.bits) (a b c d : Prog) (x y u v : ℚ)
    (ha : a.StandsFor p x) (hb : b.StandsFor p y) (hc : c.StandsFor p u) (hd : d.StandsFor p v) :
    let z := fun m => complexOf m p a b
    let w := fun m => complexOf m p c d
    (Outcome p (fun m => (Complex.add (z m) (w m)).real.res) (some (x + u)) ∧
      Outcome p (fun m => (Complex.add (z m) (w m)).imag.res) (some (y + v))) ∧
    (Outcome p (fun m => (Complex.sub (z m) (w m)).real.res) (some (x - u)) ∧
      Outcome p (fun m => (Complex.sub (z m) (w m)).imag.res) (some (y - v))) ∧
    (Outcome p (fun m => (Complex.mul (z m) (w m)).real.res) (some (x * u - y * v)) ∧
      Outcome p (fun m => (Complex.mul (z m) (w m)).imag.res) (some (x * v + u * y))) ∧
    (Outcome p (fun m => (Complex.div (z m) (w m)).real.res)
        (if u = 0 ∧ v = 0 then none else some ((x * u + y * v) / (u * u + v * v))) ∧
      Outcome p (fun m => (Complex.div (z m) (w m)).imag.res)
        (if u = 0 ∧ v = 0 then none else some ((y * u - x * v) / (u * u + v * v)))) ∧
    Outcome p (fun m => (Complex.absSquared (z m)).res) (some (x * x + y * y)) := by
  have h0 : (u = 0 ∧ v = 0) = (u * u + v * v = 0) := by
    apply propext
    constructor
    · rintro ⟨rfl, rfl⟩; simp
    · intro h
      have h1 := mul_self_nonneg u
      have h2 := mul_self_nonneg v
      exact ⟨mul_self_eq_zero.mp (by linarith), mul_self_eq_zero.mp (by linarith)⟩
  simp only [h0]
  refine ⟨⟨?_, ?_⟩, ⟨?_, ?_⟩, ⟨?_, ?_⟩, ⟨?_, ?_⟩, ?_⟩
  · exact outcome_sf hp (sf_add ha hc) fun _ => rfl
  · exact outcome_sf hp (sf_add hb hd) fun _ => rfl
  · exact outcome_sf hp (sf_sub ha hc) fun _ => rfl
  · exact outcome_sf hp (sf_sub hb hd) fun _ => rfl
  · exact outcome_sf hp (sf_sub (sf_mul ha hc) (sf_mul hb hd)) fun _ => rfl
  · exact outcome_sf hp (sf_add (sf_mul ha hd) (sf_mul hc hb)) fun _ => rfl
  · exact outcome_div hp (sf_add (sf_mul ha hc) (sf_mul hb hd))
      (sf_add (sf_mul hc hc) (sf_mul hd hd)) fun _ => rfl
  · exact outcome_div hp (sf_sub (sf_mul hb hc) (sf_mul ha hd))
      (sf_add (sf_mul hc hc) (sf_mul hd hd)) fun _ => rfl
  · exact outcome_sf hp (sf_add (sf_mul ha ha) (sf_mul hb hb)) fun _ => rfl

/-- C134 for products of matrices. -/
theorem C134_matrix_mul (p : Prim) (hp : 2 ≤ p.bits) {R C D : Nat} (hC : 0 < C)
    (E : Matrix (Fin R) (Fin C) Prog) (F : Matrix (Fin C) (Fin D) Prog) (A : Matrix (Fin R) (Fin C) ℚ)
    (B : Matrix (Fin C) (Fin D) ℚ) (hE : ∀ i j, (E i j).StandsFor p (A i j))
    (hF : ∀ i j, (F i j).StandsFor p (B i j)) (a b : ∀ m, List (List (Comp (ops m p))))
    (ha : ∀ m, MatOf (a m) (E.map (comp m p))) (hb : ∀ m, MatOf (b m) (F.map (comp m p))) :
    ∃ (c : ∀ m, List (List (Comp (ops m p)))) (P : ∀ m, Matrix (Fin R) (Fin D) (Comp (ops m p))),
      (∀ m, Mat.mul R C D (a m) (b m) = .ok (c m) ∧ MatOf (c m) (P m)) ∧
      ∀ i j, Outcome p (fun m => (P m i j).res) (some ((A * B) i j)) := by
  choose c h1 h2 using fun m => mul_fold hC (ha m) (hb m)
  refine ⟨c, _, fun m => ⟨h1 m, h2 m⟩, fun i j => ?_⟩
  have h3 := (sf_semi hp).entry hE hF i j
  rw [entry_ring hC] at h3
  exact outcome_sf hp h3 fun m => by
    rw [show entry (E.map (comp m p)) (F.map (comp m p)) i j = _ from
      (runs_semi m p).entry (fun i j => rfl) (fun i j => rfl) i j]

/-- C134 for sums and differences of matrices. -/
theorem C134_matrix_add (p : Prim) (hp : 2 ≤ p.bits) {R C : Nat}
    (E F : Matrix (Fin R) (Fin C) Prog) (A B : Matrix (Fin R) (Fin C) ℚ)
    (hE : ∀ i j, (E i j).StandsFor p (A i j))
    (hF : ∀ i j, (F i j).StandsFor p (B i j)) (a b : ∀ m, List (List (Comp (ops m p))))
    (ha : ∀ m, MatOf (a m) (E.map (comp m p))) (hb : ∀ m, MatOf (b m) (F.map (comp m p))) :
    (∃ (c : ∀ m, List (List (Comp (ops m p)))) (P : ∀ m, Matrix (Fin R) (Fin C) (Comp (ops m p))),
      (∀ m, Mat.add R C (a m) (b m) = some (c m) ∧ MatOf (c m) (P m)) ∧
      ∀ i j, Outcome p (fun m => (P m i j).res) (some (A i j + B i j))) ∧
    (∃ (c : ∀ m, List (List (Comp (ops m p)))) (P : ∀ m, Matrix (Fin R) (Fin C) (Comp (ops m p))),
      (∀ m, Mat.sub R C (a m) (b m) = some (c m) ∧ MatOf (c m) (P m)) ∧
      ∀ i j, Outcome p (fun m => (P m i j).res) (some (A i j - B i j))) := by
  choose c h1 h2 using fun m => rowsOp_spec (· + ·) (ha m) (hb m)
  choose d h3 h4 using fun m => rowsOp_spec (· - ·) (ha m) (hb m)
  exact ⟨⟨c, _, fun m => ⟨h1 m, h2 m⟩, fun i j => outcome_sf hp (sf_add (hE i j) (hF i j)) fun _ => rfl⟩,
    ⟨d, _, fun m => ⟨h3 m, h4 m⟩, fun i j => outcome_sf hp (sf_sub (hE i j) (hF i j)) fun _ => rfl⟩⟩

/-! Nothing overflows if the numbers are small enough. -/

private theorem returns {p : Prim} (hb : 2 ≤ p.bits) {c : Mode → Res RatM} {e : Prog} {q : ℚ}
    (he : e.StandsFor p q) (hs : e.SubFree) (hf : e.Fits p.maxV.toNat) (h : ∀ m, c m = e.run m p) :
    Returns p c q := by
  intro m
  obtain ⟨r, h1, h2, h3⟩ := C125_rat_total m p hb e (.inr hs) he.1 hf (by rw [he.2]; simp)
  refine ⟨r, by rw [h, h1], h2, ?_⟩
  rw [he.2] at h3
  exact (Option.some.inj h3).symm

/-- The size of a sum of `k` terms. -/
private def SumSize (M A B k : Nat) (e : Prog) : Prop :=
  e.SubFree ∧ e.Fits M ∧ e.size.1 ≤ k * A * B ^ k ∧ e.size.2 ≤ B ^ k

private theorem sumSize_add {M A B k n : Nat} (hB : 1 ≤ B) (hk : k < n) (hM : n * A * B ^ n ≤ M)
    (hM' : B ^ n ≤ M) {e t : Prog} (he : SumSize M A B k e) (h1 : t.SubFree) (h2 : t.Fits M)
    (h3 : t.size.1 ≤ A) (h4 : t.size.2 ≤ B) : SumSize M A B (k + 1) (e + t) := by
  obtain ⟨e1, e2, e3, e4⟩ := he
  have b1 : (e + t).size.1 ≤ (k + 1) * A * B ^ (k + 1) := by
    change e.size.1 * t.size.2 + t.size.1 * e.size.2 ≤ _
    calc e.size.1 * t.size.2 + t.size.1 * e.size.2
        ≤ k * A * B ^ k * B + A * B ^ k := Nat.add_le_add (Nat.mul_le_mul e3 h4) (Nat.mul_le_mul h3 e4)
      _ ≤ k * A * B ^ k * B + A * B ^ k * B := Nat.add_le_add_left (Nat.le_mul_of_pos_right _ hB) _
      _ = (k + 1) * A * B ^ (k + 1) := by ring
  have b2 : (e + t).size.2 ≤ B ^ (k + 1) := by
    change e.size.2 * t.size.2 ≤ _
    rw [pow_succ]
    exact Nat.mul_le_mul e4 h4
  have hp : B ^ (k + 1) ≤ B ^ n := Nat.pow_le_pow_right hB (by omega)
  refine ⟨⟨e1, h1⟩, ⟨e2, h2, b1.trans (le_trans ?_ hM), b2.trans (hp.trans hM')⟩, b1, b2⟩
  exact Nat.mul_le_mul (Nat.mul_le_mul_right _ (by omega)) hp

private theorem sumSize_foldl {M A B n : Nat} (hB : 1 ≤ B) (hM : n * A * B ^ n ≤ M) (hM' : B ^ n ≤ M)
    (l : List Prog) (h : ∀ t ∈ l, t.SubFree ∧ t.Fits M ∧ t.size.1 ≤ A ∧ t.size.2 ≤ B) (k : Nat) (e : Prog)
    (he : SumSize M A B k e) (hk : k + l.length ≤ n) :
    SumSize M A B (k + l.length) (l.foldl (fun a v => a + v) e) := by
  induction l generalizing k e with
  | nil => exact he
  | cons t l ih =>
    rw [List.length_cons] at hk
    obtain ⟨t1, t2, t3, t4⟩ := h t (by simp)
    have := ih (fun t ht => h t (by simp [ht])) (k + 1) (e + t)
      (sumSize_add hB (by omega) hM hM' he t1 t2 t3 t4) (by omega)
    rw [List.length_cons, show k + (l.length + 1) = k + 1 + l.length by omega]
    exact this

/-- A product of two fractions as written. -/
private theorem mul_size {M A B : Nat} {n d n' d' : Int} (h1 : n.natAbs ≤ A)
    (h2 : d.natAbs ≤ B) (h3 : n'.natAbs ≤ A) (h4 : d'.natAbs ≤ B) (hA : A ^ 2 ≤ M) (hB : B ^ 2 ≤ M) :
    (Prog.new n d * Prog.new n' d').SubFree ∧ (Prog.new n d * Prog.new n' d').Fits M ∧
    (Prog.new n d * Prog.new n' d').size.1 ≤ A ^ 2 ∧ (Prog.new n d * Prog.new n' d').size.2 ≤ B ^ 2 := by
  have k1 : n.natAbs * n'.natAbs ≤ A ^ 2 := by rw [sq]; exact Nat.mul_le_mul h1 h3
  have k2 : d.natAbs * d'.natAbs ≤ B ^ 2 := by rw [sq]; exact Nat.mul_le_mul h2 h4
  have a1 : A ≤ M := le_trans (Nat.le_self_pow (by norm_num) A) hA
  have b1 : B ≤ M := le_trans (Nat.le_self_pow (by norm_num) B) hB
  exact ⟨⟨trivial, trivial⟩, ⟨⟨h1.trans a1, h2.trans b1⟩, ⟨h3.trans a1, h4.trans b1⟩, k1.trans hA,
    k2.trans hB⟩, k1, k2⟩

private theorem sf_new {p : Prim} {n d : Int} (hn : p.InRange n) (hd : p.InRange d) (h0 : d ≠ 0) :
    (Prog.new n d).StandsFor p (n / d) :=
  ⟨⟨hn, hd⟩, by rw [Prog.denote, if_neg h0]⟩

/-- C134: the scalar product of fractions with numerators up to `A` and denominators up to `B` (in
absolute value) is exact in both builds if `N·A²·B²ᴺ` fits into the type. -/
theorem C134_dot_total (p : Prim) (hp : 2 ≤ p.bits) {N : Nat} (A B : Nat) (n d n' d' : Fin N → Int)
    (hr : ∀ i, p.InRange (n i) ∧ p.InRange (d i) ∧ p.InRange (n' i) ∧ p.InRange (d' i))
    (h0 : ∀ i, d i ≠ 0 ∧ d' i ≠ 0)
    (hA : ∀ i, (n i).natAbs ≤ A ∧ (n' i).natAbs ≤ A) (hB : ∀ i, (d i).natAbs ≤ B ∧ (d' i).natAbs ≤ B)
    (hM : max (N * A ^ 2) 1 * B ^ (2 * N) ≤ p.maxV.toNat) :
    Returns p (fun m => (Vect.dotProduct (vecOf m p fun i => .new (n i) (d i))
      (vecOf m p fun i => .new (n' i) (d' i))).res) (∑ i, (n i / d i : ℚ) * (n' i / d' i)) := by
  obtain ⟨i0, i1⟩ := zero_one_inRange hp
  have m1 : 1 ≤ p.maxV.toNat := by have := i1.2; omega
  have ha := fun i => sf_new (hr i).1 (hr i).2.1 (h0 i).1
  have hb := fun i => sf_new (hr i).2.2.1 (hr i).2.2.2 (h0 i).2
  have h1 := (sf_semi hp).dot (sf_vec ha) (sf_vec hb)
  rw [Vect.C78_dot] at h1
  rw [pow_mul] at hM
  have M1 : N * A ^ 2 * (B ^ 2) ^ N ≤ p.maxV.toNat :=
    le_trans (Nat.mul_le_mul_right _ (le_max_left _ _)) hM
  have M2 : (B ^ 2) ^ N ≤ p.maxV.toNat := by
    calc (B ^ 2) ^ N = 1 * (B ^ 2) ^ N := (one_mul _).symm
      _ ≤ _ := le_trans (Nat.mul_le_mul_right _ (le_max_right _ _)) hM
  have key : SumSize p.maxV.toNat (A ^ 2) (B ^ 2)
      (0 + ((Vect.stdZip (List.ofFn fun i => Prog.new (n i) (d i))
        (List.ofFn fun i => Prog.new (n' i) (d' i))).map fun p => p.1 * p.2).length)
      (Vect.dotProduct (List.ofFn fun i => Prog.new (n i) (d i))
        (List.ofFn fun i => Prog.new (n' i) (d' i))) := by
    rcases Nat.eq_zero_or_pos N with rfl | hN
    · change SumSize _ _ _ 0 (Prog.new 0 1)
      exact ⟨trivial, ⟨by simp, by simpa using m1⟩, by simp [Prog.size], by simp [Prog.size]⟩
    have B1 : 1 ≤ B := by
      have := (hB ⟨0, hN⟩).1
      have := (h0 ⟨0, hN⟩).1
      omega
    have B2 : 1 ≤ B ^ 2 := Nat.one_le_pow _ _ B1
    have e1 : A ^ 2 ≤ p.maxV.toNat := by
      refine le_trans ?_ M1
      calc A ^ 2 = 1 * A ^ 2 * 1 := by ring
        _ ≤ N * A ^ 2 * (B ^ 2) ^ N := Nat.mul_le_mul (Nat.mul_le_mul_right _ hN) (Nat.one_le_pow _ _ B2)
    have e2 : B ^ 2 ≤ p.maxV.toNat := le_trans (Nat.le_self_pow (by omega) _) M2
    refine sumSize_foldl B2 M1 M2 _ ?_ 0 _ ⟨trivial, ⟨by simp, by simpa using m1⟩, by simp [Prog.size], by
      simp [Prog.size]⟩ ?_
    · intro t ht
      rw [Vect.stdZip_map (fun x y => x * y), Vect.zipWith_ofFn] at ht
      obtain ⟨i, rfl⟩ := (List.mem_ofFn' _ _).mp ht
      exact mul_size (hA i).1 (hB i).1 (hA i).2 (hB i).2 e1 e2
    · rw [Vect.stdZip_map (fun x y => x * y), Vect.zipWith_ofFn]; simp
  exact returns hp h1 key.1 key.2.1 fun m => by
    rw [show Vect.dotProduct (vecOf m p _) (vecOf m p _) = _ from
      (runs_semi m p).dot (runs_vec m p _) (runs_vec m p _)]

/-- C134: likewise for the entries of a product of matrices. -/
theorem C134_matrix_total (p : Prim) (hp : 2 ≤ p.bits) {R C D : Nat} (hC : 0 < C) (A B : Nat)
    (n d : Matrix (Fin R) (Fin C) Int) (n' d' : Matrix (Fin C) (Fin D) Int)
    (hr : ∀ i k, p.InRange (n i k) ∧ p.InRange (d i k) ∧ d i k ≠ 0)
    (hr' : ∀ k j, p.InRange (n' k j) ∧ p.InRange (d' k j) ∧ d' k j ≠ 0)
    (hA : ∀ i k, (n i k).natAbs ≤ A ∧ (d i k).natAbs ≤ B)
    (hB : ∀ k j, (n' k j).natAbs ≤ A ∧ (d' k j).natAbs ≤ B)
    (hM : max (C * A ^ 2) 1 * B ^ (2 * C) ≤ p.maxV.toNat)
    (a b : ∀ m, List (List (Comp (ops m p))))
    (ha : ∀ m, MatOf (a m) fun i k => comp m p (.new (n i k) (d i k)))
    (hb : ∀ m, MatOf (b m) fun k j => comp m p (.new (n' k j) (d' k j))) :
    ∃ (c : ∀ m, List (List (Comp (ops m p)))) (P : ∀ m, Matrix (Fin R) (Fin D) (Comp (ops m p))),
      (∀ m, Mat.mul R C D (a m) (b m) = .ok (c m) ∧ MatOf (c m) (P m)) ∧
      ∀ i j, Returns p (fun m => (P m i j).res) (∑ k, (n i k / d i k : ℚ) * (n' k j / d' k j)) := by
  choose c h1 h2 using fun m => mul_fold hC (ha m) (hb m)
  refine ⟨c, _, fun m => ⟨h1 m, h2 m⟩, fun i j => ?_⟩
  let E : Matrix (Fin R) (Fin C) Prog := fun i k => .new (n i k) (d i k)
  let F : Matrix (Fin C) (Fin D) Prog := fun k j => .new (n' k j) (d' k j)
  let Q : Matrix (Fin R) (Fin C) ℚ := fun i k => (n i k / d i k : ℚ)
  let S : Matrix (Fin C) (Fin D) ℚ := fun k j => (n' k j / d' k j : ℚ)
  have h3 := (sf_semi hp).entry (A := E) (B := F) (A' := Q) (B' := S) (fun i k => sf_new (hr i k).1 (hr i k).2.1 (hr i k).2.2)
    (fun k j => sf_new (hr' k j).1 (hr' k j).2.1 (hr' k j).2.2) i j
  rw [entry_ring hC, Matrix.mul_apply] at h3
  rw [pow_mul] at hM
  have M1 : C * A ^ 2 * (B ^ 2) ^ C ≤ p.maxV.toNat :=
    le_trans (Nat.mul_le_mul_right _ (le_max_left _ _)) hM
  have M2 : (B ^ 2) ^ C ≤ p.maxV.toNat := by
    calc (B ^ 2) ^ C = 1 * (B ^ 2) ^ C := (one_mul _).symm
      _ ≤ _ := le_trans (Nat.mul_le_mul_right _ (le_max_right _ _)) hM
  have B1 : 1 ≤ B := by
    have := (hA i ⟨0, hC⟩).2
    have := (hr i ⟨0, hC⟩).2.2
    omega
  have B2 : 1 ≤ B ^ 2 := Nat.one_le_pow _ _ B1
  have e1 : A ^ 2 ≤ p.maxV.toNat := by
    refine le_trans ?_ M1
    calc A ^ 2 = 1 * A ^ 2 * 1 := by ring
      _ ≤ C * A ^ 2 * (B ^ 2) ^ C := Nat.mul_le_mul (Nat.mul_le_mul_right _ hC) (Nat.one_le_pow _ _ B2)
  have e2 : B ^ 2 ≤ p.maxV.toNat := le_trans (Nat.le_self_pow (by omega) _) M2
  have term : ∀ k, k < C → (extend E i k * extend F k j).SubFree ∧
      (extend E i k * extend F k j).Fits p.maxV.toNat ∧
      (extend E i k * extend F k j).size.1 ≤ A ^ 2 ∧ (extend E i k * extend F k j).size.2 ≤ B ^ 2 := by
    intro k hk
    rw [show extend E i k = E i ⟨k, hk⟩ from extend_apply E i ⟨k, hk⟩,
      show extend F k j = F ⟨k, hk⟩ j from extend_apply F ⟨k, hk⟩ j]
    exact mul_size (hA i ⟨k, hk⟩).1 (hA i ⟨k, hk⟩).2 (hB ⟨k, hk⟩ j).1 (hB ⟨k, hk⟩ j).2 e1 e2
  have key : ∀ l, l + 1 ≤ C → SumSize p.maxV.toNat (A ^ 2) (B ^ 2) (l + 1)
      (forUp l (fun k out => out + extend E i (k + 1) * extend F (k + 1) j)
        (extend E i 0 * extend F 0 j)) := by
    intro l
    induction l with
    | zero =>
      intro _
      obtain ⟨t1, t2, t3, t4⟩ := term 0 hC
      refine ⟨t1, t2, t3.trans ?_, t4.trans (by simp)⟩
      calc A ^ 2 ≤ A ^ 2 * B ^ 2 := Nat.le_mul_of_pos_right _ B2
        _ = (0 + 1) * A ^ 2 * (B ^ 2) ^ (0 + 1) := by ring
    | succ l ih =>
      intro hl
      obtain ⟨t1, t2, t3, t4⟩ := term (l + 1) (by omega)
      exact sumSize_add B2 (by omega) M1 M2 (ih (by omega)) t1 t2 t3 t4
  have key := key (C - 1) (by omega)
  exact returns hp h3 key.1 key.2.1 fun m => by
    rw [show entry (fun i k => comp m p (.new (n i k) (d i k))) _ i j = _ from
      (runs_semi m p).entry (A' := E) (B' := F) (fun i j => rfl) (fun i j => rfl) i j]

/-! Non-trivial cases: `(1/2, 2/3) · (3/4, 1/5)`, the quotient of two complex numbers, and one that
overflows. -/

example : ((![.new 1 2, .new 2 3] : Fin 2 → Prog) 1).StandsFor i8 (2 / 3) ∧
    (Vect.dotProduct (vecOf .debug i8 ![.new 1 2, .new 2 3]) (vecOf .debug i8 ![.new 3 4, .new 1 5])).res =
      .ok ⟨61, 120⟩ ∧
    (Complex.div (complexOf .debug i8 (.new 1 2) (.new 1 1)) (complexOf .debug i8 (.new 1 1) (.new (-1) 1))).real.res =
      .ok ⟨-1, 4⟩ ∧
    (Vect.dotProduct (vecOf .debug i8 ![.new 1 7, .new 2 3]) (vecOf .debug i8 ![.new 3 4, .new 1 5])).res =
      .panic := by
  refine ⟨⟨⟨by decide, by decide⟩, ?_⟩, by decide, by decide, by decide⟩
  norm_num [Prog.denote]

end RatM

end Verif
