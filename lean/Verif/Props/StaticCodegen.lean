import Verif.Model.StaticCodegen
import Verif.Props.StaticIter
import Verif.Lemmas.Prim

/-!
# C169: the array functions over `i32`
-/

namespace Verif

namespace StaticIter

open Prim

theorem runAll_panicking {α : Type} (act : Nat → Bool → Option (α × Bool)) (e : Nat → α)
    (g : α → Res Int) (is : List Nat) (he : ∀ i ∈ is, ∀ w, act i w = some (e i, w)) (w : Bool) :
    ∃ l w', runAll (fun i w => (act i w).map fun r => panicking g r.1 r.2) is w = some (l, w') ∧
      (∀ u : Nat → Int, (∀ i ∈ is, g (e i) = .ok (u i)) → l = is.map u ∧ w' = w) ∧
      ((w = true ∨ ∃ i ∈ is, g (e i) = .panic) → w' = true) := by
  induction is generalizing w with
  | nil => exact ⟨[], w, rfl, fun _ _ => ⟨rfl, rfl⟩, by simp⟩
  | cons i is ih =>
    obtain ⟨l, w', h1, h2, h3⟩ := ih (fun j hj => he j (List.mem_cons_of_mem _ hj)) (panicking g (e i) w).2
    refine ⟨(panicking g (e i) w).1 :: l, w', ?_, fun u hu => ?_, fun hp => h3 ?_⟩
    · unfold runAll
      rw [he i (by simp) w]
      simp only [Option.map_some, Option.bind_some]
      rw [h1]; rfl
    · have hi := hu i (by simp)
      obtain ⟨k1, k2⟩ := h2 u fun j hj => hu j (List.mem_cons_of_mem _ hj)
      have ep : panicking g (e i) w = (u i, w) := by unfold panicking; rw [hi]
      rw [k1, k2, ep]
      exact ⟨rfl, rfl⟩
    · rcases hp with rfl | ⟨j, hj, hp⟩
      · left; unfold panicking; split <;> rfl
      · rcases List.mem_cons.mp hj with rfl | hj
        · left; unfold panicking; rw [hp]
        · exact .inr ⟨j, hj, hp⟩

/-- A pipeline whose last closure may panic. -/
theorem outcome_panicking {α : Type} (N : Nat) (p : Pipe Bool α) (hp : p.Sized N) (e : Nat → α)
    (he : ∀ i < N, ∀ w, p.elem i w = some (e i, w)) (g : α → Res Int) :
    (∀ u : Nat → Int, (∀ i < N, g (e i) = .ok (u i)) →
      outcome (collectArray N (map p.iter (panicking g)) false) = some (.ok ((List.range N).map u))) ∧
    ((∃ i < N, g (e i) = .panic) → outcome (collectArray N (map p.iter (panicking g)) false) = some .panic) := by
  obtain ⟨l, w', c1, -, c3⟩ := C85_collect N (Pipe.map p (panicking g)) hp false
  obtain ⟨l', w'', r1, r2, r3⟩ := runAll_panicking p.elem e g (List.range N)
    (fun i hi => he i (List.mem_range.mp hi)) false
  have c3' : runAll (fun i w => (p.elem i w).map fun r => panicking g r.1 r.2) (List.range N) false =
    some (l, w') := c3
  rw [r1, Option.some.injEq, Prod.mk.injEq] at c3'
  obtain ⟨rfl, rfl⟩ := c3'
  have c1' : collectArray N (map p.iter (panicking g)) false = some (l', w'') := c1
  rw [c1']
  constructor
  · intro u hu
    obtain ⟨k1, k2⟩ := r2 u fun i hi => hu i (List.mem_range.mp hi)
    rw [k1, k2]; rfl
  · rintro ⟨i, hi, k⟩
    rw [r3 (.inr ⟨i, List.mem_range.mpr hi, k⟩)]; rfl

/-- The arrays `r` computes from numbers `f i`: `f i` itself at index `i` if all of the numbers are
representable; otherwise debug builds panic. Release builds always return an array, with the representable
number that is congruent to `f i` modulo `2^32`. -/
def Elementwise (N : Nat) (f : Nat → Int) (r : Mode → Option (Res (List Int))) : Prop :=
  (∀ m, (∀ i < N, i32.InRange (f i)) → r m = some (.ok ((List.range N).map f))) ∧
  ((∃ i < N, ¬ i32.InRange (f i)) → r .debug = some .panic) ∧
  ∃ u : Nat → Int, r .release = some (.ok ((List.range N).map u)) ∧
    ∀ i < N, i32.InRange (u i) ∧ (2 ^ 32 : Int) ∣ u i - f i

theorem arith_wraps (z : Int) : ∃ w, arith .release i32 z = .ok w ∧ i32.InRange w ∧ (2 ^ 32 : Int) ∣ w - z := by
  by_cases h : i32.InRange z
  · exact ⟨z, arith_ok _ h, h, by simp⟩
  · obtain ⟨h1, h2⟩ := wrap_spec (p := i32) (by decide) z
    exact ⟨_, by unfold arith; rw [if_neg h], h1, h2⟩

theorem elementwise {α : Type} (N : Nat) (p : Pipe Bool α) (hp : p.Sized N) (e : Nat → α)
    (he : ∀ i < N, ∀ w, p.elem i w = some (e i, w)) (f : α → Int) (f' : Nat → Int)
    (hf : ∀ i < N, f (e i) = f' i) :
    Elementwise N f' fun m =>
      outcome (collectArray N (map p.iter (panicking fun x => arith m i32 (f x))) false) := by
  refine ⟨fun m h => ?_, fun ⟨i, hi, h⟩ => ?_, fun i => (arith_wraps (f (e i))).choose, ?_, fun i hi => ?_⟩
  · exact (outcome_panicking N p hp e he _).1 _ fun i hi => by rw [hf i hi]; exact arith_ok m (h i hi)
  · exact (outcome_panicking N p hp e he _).2 ⟨i, hi, by rw [hf i hi]; unfold arith; rw [if_neg h]⟩
  · exact (outcome_panicking N p hp e he _).1 _ fun i hi => (arith_wraps (f (e i))).choose_spec.1
  · rw [← hf i hi]; exact (arith_wraps (f (e i))).choose_spec.2

theorem elem_array {W : Type} {N : Nat} {l : List Int} (h : l.length = N) (i : Nat) (hi : i < N) (w : W) :
    (Pipe.array l).elem i w = some (l.getD i 0, w) := by
  simp [Pipe.elem, List.getElem?_eq_getElem (h ▸ hi), List.getD_eq_getElem?_getD]

/-- C169: `zip_add`, `zip_mul` and `map_neg` work elementwise. -/
theorem C169_elementwise (N : Nat) (a b : List Int) (ha : a.length = N) (hb : b.length = N) :
    Elementwise N (fun i => a.getD i 0 + b.getD i 0) (fun m => zipAdd m N a b) ∧
    Elementwise N (fun i => a.getD i 0 * b.getD i 0) (fun m => zipMul m N a b) ∧
    Elementwise N (fun i => -a.getD i 0) (fun m => mapNeg m N a) := by
  have hz : ∀ i < N, ∀ w : Bool, (Pipe.zip (.array a) (.array b)).elem i w =
      some ((a.getD i 0, b.getD i 0), w) := fun i hi w => by
    unfold Pipe.elem
    rw [elem_array ha i hi, Option.bind_some, elem_array hb i hi]; rfl
  exact ⟨elementwise N (.zip (.array a) (.array b)) ⟨ha, hb⟩ _ hz (fun x => x.1 + x.2) _ fun _ _ => rfl,
    elementwise N (.zip (.array a) (.array b)) ⟨ha, hb⟩ _ hz (fun x => x.1 * x.2) _ fun _ _ => rfl,
    elementwise N (.array a) ha _ (fun i hi w => elem_array ha i hi w) (fun x => -x) _ fun _ _ => rfl⟩

/-- C169 for `zip_many`, with the products taken from the left: debug builds panic exactly if one of the
partial products is not representable, and otherwise the product is exact; release builds wrap. -/
theorem C169_zip_many (N : Nat) (a b c d : List Int) (ha : a.length = N) (hb : b.length = N)
    (hc : c.length = N) (hd : d.length = N) :
    (∀ m, (∀ i < N, i32.InRange (a.getD i 0 * b.getD i 0) ∧ i32.InRange (a.getD i 0 * b.getD i 0 * c.getD i 0) ∧
        i32.InRange (a.getD i 0 * b.getD i 0 * c.getD i 0 * d.getD i 0)) →
      zipMany m N a b c d = some (.ok ((List.range N).map fun i =>
        a.getD i 0 * b.getD i 0 * c.getD i 0 * d.getD i 0))) ∧
    ((∃ i < N, ¬ (i32.InRange (a.getD i 0 * b.getD i 0) ∧
        i32.InRange (a.getD i 0 * b.getD i 0 * c.getD i 0) ∧
        i32.InRange (a.getD i 0 * b.getD i 0 * c.getD i 0 * d.getD i 0))) →
      zipMany .debug N a b c d = some .panic) ∧
    ∃ u : Nat → Int, zipMany .release N a b c d = some (.ok ((List.range N).map u)) ∧
      ∀ i < N, i32.InRange (u i) ∧
        (2 ^ 32 : Int) ∣ u i - a.getD i 0 * b.getD i 0 * c.getD i 0 * d.getD i 0 := by
  let p : Pipe Bool (List Int) :=
    .zipCons (.array a) (.zipCons (.array b) (.zipCons (.array c) (.zipCons (.array d) .zipNil)))
  have hp : p.Sized N := ⟨ha, hb, hc, hd, trivial⟩
  have he : ∀ i < N, ∀ w, p.elem i w = some ([a.getD i 0, b.getD i 0, c.getD i 0, d.getD i 0], w) := by
    intro i hi w
    simp only [p, Pipe.elem, List.getElem?_eq_getElem (ha ▸ hi), List.getElem?_eq_getElem (hb ▸ hi),
      List.getElem?_eq_getElem (hc ▸ hi), List.getElem?_eq_getElem (hd ▸ hi), Option.map_some,
      Option.bind_some, List.getD_eq_getElem?_getD, Option.getD_some]
  have all := fun m => outcome_panicking N p hp _ he fun x => match x with
      | [a, b, c, d] => (Prim.arith m Prim.i32 (a * b)).bind fun ab =>
        (Prim.arith m Prim.i32 (ab * c)).bind fun abc => Prim.arith m Prim.i32 (abc * d)
      | _ => .panic
  refine ⟨fun m h => ?_, fun ⟨i, hi, h⟩ => ?_, ?_⟩
  · refine (all m).1 _ fun i hi => ?_
    obtain ⟨h1, h2, h3⟩ := h i hi
    simp only [arith_ok m h1, Res.bind, arith_ok m h2, arith_ok m h3]
  · refine (all .debug).2 ⟨i, hi, ?_⟩
    have pn : ∀ z, ¬ i32.InRange z → arith .debug i32 z = .panic := fun z k => by unfold arith; rw [if_neg k]
    dsimp only
    by_cases h1 : i32.InRange (a.getD i 0 * b.getD i 0)
    · rw [arith_ok _ h1]
      dsimp only [Res.bind]
      by_cases h2 : i32.InRange (a.getD i 0 * b.getD i 0 * c.getD i 0)
      · rw [arith_ok _ h2]
        exact pn _ fun h3 => h ⟨h1, h2, h3⟩
      · rw [pn _ h2]
    · rw [pn _ h1]; rfl
  · have ex : ∀ x y z w : Int, ∃ u, ((arith .release i32 (x * y)).bind fun ab =>
        (arith .release i32 (ab * z)).bind fun abc => arith .release i32 (abc * w)) = .ok u ∧
        i32.InRange u ∧ (2 ^ 32 : Int) ∣ u - x * y * z * w := fun x y z w => by
      obtain ⟨r, r1, -, r3⟩ := arith_wraps (x * y)
      obtain ⟨s, s1, -, s3⟩ := arith_wraps (r * z)
      obtain ⟨t, t1, t2, t3⟩ := arith_wraps (s * w)
      refine ⟨t, by rw [r1]; dsimp only [Res.bind]; rw [s1]; exact t1, t2, ?_⟩
      have e : t - x * y * z * w = (t - s * w) + (s - r * z) * w + (r - x * y) * (z * w) := by ring
      rw [e]
      exact dvd_add (dvd_add t3 (Dvd.dvd.mul_right s3 _)) (Dvd.dvd.mul_right r3 _)
    refine ⟨fun i => (ex (a.getD i 0) (b.getD i 0) (c.getD i 0) (d.getD i 0)).choose,
      (all .release).1 _ fun i hi => ?_, fun i _ => ?_⟩
    · exact (ex (a.getD i 0) (b.getD i 0) (c.getD i 0) (d.getD i 0)).choose_spec.1
    · exact (ex (a.getD i 0) (b.getD i 0) (c.getD i 0) (d.getD i 0)).choose_spec.2

example : zipAdd .debug 2 [1, 2] [5, -6] = some (.ok [6, -4]) ∧
    zipAdd .debug 2 [1, 2147483647] [5, 1] = some .panic ∧
    zipAdd .release 2 [1, 2147483647] [5, 1] = some (.ok [6, -2147483648]) ∧
    zipMany .debug 1 [65536] [65536] [0] [1] = some .panic ∧
    zipMany .release 1 [2] [3] [4] [5] = some (.ok [120]) := by
  refine ⟨by decide, by decide, by decide, by decide, by decide⟩

end StaticIter

end Verif
