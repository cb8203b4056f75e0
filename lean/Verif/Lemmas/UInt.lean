import Verif.Lemmas.Conv
import Verif.Model.IInt

/-!
# Helper lemmas: byte arrays of `U<N>` and `I<N>`
-/

namespace Verif

open BitSlice

theorem modulus_bytes (a : Bytes) : modulus a = 256 ^ a.length := by
  rw [modulus, Nat.pow_mul]

theorem getD_map_range {w : Nat} (n : Nat) (f : Nat → BitVec w) (j : Nat) :
    ((List.range n).map f).getD j 0 = if j < n then f j else 0 := by
  by_cases h : j < n <;> simp [List.getD_eq_getElem?_getD, h]

theorem leBytes_length (size : Nat) (v : BitVec (8 * size)) : (leBytes size v).length = size := by
  simp [leBytes]

theorem pv_leBytes (size : Nat) (v : BitVec (8 * size)) (n : Nat) (hn : n ≤ size) :
    pv (leBytes size v) n = v.toNat % 2 ^ (8 * n) := by
  induction n with
  | zero => simp [Nat.mod_one]
  | succ n ih =>
    rw [pv_succ, ih (by omega)]
    unfold leBytes
    rw [getD_map_range, if_pos (by omega), BitVec.toNat_ofNat, Nat.mul_succ, Nat.pow_add,
      Nat.mod_mul, Nat.mul_comm (2 ^ (8 * n))]

theorem val_leBytes (size : Nat) (v : BitVec (8 * size)) : val (leBytes size v) = v.toNat := by
  have h := pv_leBytes size v size le_rfl
  rw [pv_eq_val _ _ (by rw [leBytes_length]), Nat.mod_eq_of_lt v.isLt] at h
  exact h

theorem ofLeBytes_toNat (size : Nat) (b : Bytes) :
    (ofLeBytes size b).toNat = val b % 2 ^ (8 * size) := by
  induction b with
  | nil => simp [ofLeBytes]
  | cons x xs ih =>
    have e : ofLeBytes size (x :: xs) = ofLeBytes size xs * 256 + x.setWidth (8 * size) := rfl
    rw [e, BitVec.toNat_add, BitVec.toNat_mul, BitVec.toNat_setWidth, ih, val_cons]
    have h256 : (256 : BitVec (8 * size)).toNat = 256 % 2 ^ (8 * size) := by
      rw [← BitVec.toNat_ofNat]; rfl
    rw [h256]
    simp only [← Nat.mul_mod, ← Nat.add_mod]
    congr 1
    ring

theorem ofLeBytes_leBytes (size : Nat) (v : BitVec (8 * size)) :
    ofLeBytes size (leBytes size v) = v := by
  apply BitVec.eq_of_toNat_eq
  rw [ofLeBytes_toNat, val_leBytes, Nat.mod_eq_of_lt v.isLt]

theorem leBytes_ofLeBytes (b : Bytes) : leBytes b.length (ofLeBytes b.length b) = b := by
  apply eq_of_val_eq (by rw [leBytes_length])
  rw [val_leBytes, ofLeBytes_toNat]
  exact Nat.mod_eq_of_lt (val_lt b)

/-! ## Constants -/

theorem UN.val_zero (n : Nat) : val (UN.zero n) = 0 := val_replicate_zero n

theorem UN.length_zero (n : Nat) : (UN.zero n).length = n := by simp [UN.zero]

theorem UN.length_one (n : Nat) : (UN.one n).length = n := by simp [UN.one]

theorem UN.one_eq (n : Nat) : UN.one (n + 1) = 1 :: List.replicate n 0 := by
  unfold UN.one
  rw [List.range_succ_eq_map]
  simp only [List.map_cons, if_true, List.map_map, List.cons.injEq, true_and]
  rw [List.eq_replicate_iff]
  simp

theorem UN.val_one (n : Nat) : val (UN.one n) = 1 % 256 ^ n := by
  cases n with
  | zero => rfl
  | succ n =>
    rw [UN.one_eq, val_cons, val_replicate_zero, Nat.mod_eq_of_lt (Nat.one_lt_pow (by omega) (by norm_num))]
    rfl

theorem val_maxValue (n : Nat) : val (UN.maxValue n) = 256 ^ n - 1 := by
  have h : UN.maxValue n = elementNot (UN.zero n) := by
    simp only [UN.maxValue, elementNot, UN.zero, List.map_replicate]
    rfl
  have h2 := not_val (UN.zero n)
  rw [h]
  rw [UN.val_zero, modulus_bytes, UN.length_zero] at h2
  omega

theorem UN.isZero_iff (a : Bytes) : UN.isZero a = true ↔ val a = 0 := by
  induction a with
  | nil => simp [UN.isZero]
  | cons x xs ih =>
    unfold UN.isZero at ih ⊢
    rw [List.all_cons, Bool.and_eq_true, ih, val_cons]
    constructor
    · rintro ⟨h1, h2⟩
      have : x = 0 := by simpa using h1
      rw [this, h2]; rfl
    · intro h
      have h1 : x.toNat = 0 := by omega
      have h2 : val xs = 0 := by
        have : 2 ^ 8 * val xs = 0 := by omega
        simpa using this
      exact ⟨by rw [beq_iff_eq]; exact BitVec.eq_of_toNat_eq (by simpa using h1), h2⟩

theorem UN.isOne_spec (a : Bytes) (ha : a ≠ []) :
    UN.isOne a = .ok (decide (val a = 1)) := by
  match a, ha with
  | x :: xs, _ =>
    simp only [UN.isOne]
    congr 1
    have hz := UN.isZero_iff xs
    unfold UN.isZero at hz
    rw [Bool.eq_iff_iff, Bool.and_eq_true, hz, decide_eq_true_iff, val_cons]
    have hx := x.isLt
    constructor
    · rintro ⟨h1, h2⟩
      have : x = 1 := by simpa using h1
      rw [this, h2]; rfl
    · intro h
      have h2 : val xs = 0 := by
        rcases Nat.eq_zero_or_pos (val xs) with h0 | h0
        · exact h0
        · have : 2 ^ 8 * 1 ≤ 2 ^ 8 * val xs := Nat.mul_le_mul_left _ h0
          omega
      refine ⟨?_, h2⟩
      rw [beq_iff_eq]
      apply BitVec.eq_of_toNat_eq
      rw [h2] at h
      simpa using h

/-! ## Casts -/

theorem copy_loop (v : Bytes) (src : Nat → BitVec 8) (size n : Nat) (hn : n ≤ size)
    (hv : ∀ i < n, v.getD i 0 = src i) (hvl : v.length = n) :
    ∃ arr, forUpM n (fun i arr => BitSlice.set arr i (src i)) (List.replicate size 0) = .ok arr ∧
      arr.length = size ∧ val arr = val v := by
  obtain ⟨arr, h1, h2, h3⟩ := forUpM_inv
    (fun i (arr : Bytes) => arr.length = size ∧
      ∀ j, arr.getD j 0 = if j < i then src j else 0)
    (fun i arr => BitSlice.set arr i (src i)) n (List.replicate size 0)
    ⟨by simp, fun j => by rw [getD_replicate]; simp⟩
    (by
      rintro i arr hi ⟨g1, g2⟩
      refine ⟨_, set_eq _ _ _ (by omega), by simpa using g1, fun j => ?_⟩
      rw [getD_set, g2]
      by_cases h : i = j
      · subst h; rw [if_pos ⟨rfl, by omega⟩, if_pos (by omega)]
      · rw [if_neg (by omega)]
        by_cases h' : j < i
        · rw [if_pos h', if_pos (by omega)]
        · rw [if_neg h', if_neg (by omega)])
  refine ⟨arr, h1, h2, ?_⟩
  rw [val_eq_iff]
  intro j _
  rw [h3]
  split
  · rename_i h; exact (hv j h).symm
  · rename_i h; rw [getD_of_ge _ _ (by omega)]

theorem toPrimChecked_small (size : Nat) (v : Bytes) (h : v.length ≤ size) :
    UN.toPrimChecked size v = .ok (some (BitVec.ofNat _ (val v))) := by
  unfold UN.toPrimChecked
  simp only [h, if_true]
  obtain ⟨arr, h1, h2, h3⟩ := copy_loop v (fun i => v.getD i 0) size v.length h
    (fun _ _ => rfl) rfl
  rw [h1]
  simp only [Res.bind]
  congr 2
  apply BitVec.eq_of_toNat_eq
  rw [ofLeBytes_toNat, h3, BitVec.toNat_ofNat]

/-- Every checked cast to a narrower primitive type panics. -/
theorem toPrimChecked_panic (size : Nat) (v : Bytes) (h : size < v.length) :
    UN.toPrimChecked size v = .panic := by
  unfold UN.toPrimChecked
  simp only [show ¬ v.length ≤ size by omega, if_false]
  set f := UN.toPrimStep size v with hf
  have low : ∀ n ≤ size, ∃ arr : Bytes, arr.length = size ∧
      forUpM n f (some (List.replicate size 0)) = .ok (some arr) := by
    intro n hn
    induction n with
    | zero => exact ⟨_, by simp, rfl⟩
    | succ n ih =>
      obtain ⟨arr, a1, a2⟩ := ih (by omega)
      refine ⟨arr.set n (v.getD n 0), by simpa using a1, ?_⟩
      rw [forUpM, a2]
      simp only [Res.bind, hf, UN.toPrimStep]
      rw [if_pos (by omega), set_eq _ _ _ (by omega)]
  have high : ∀ n, size < n → forUpM n f (some (List.replicate size 0)) = .panic := by
    intro n hn
    induction n with
    | zero => omega
    | succ n ih =>
      by_cases h' : size < n
      · rw [forUpM, ih h']; rfl
      · have e : n = size := by omega
        subst e
        obtain ⟨arr, a1, a2⟩ := low n le_rfl
        rw [forUpM, a2]
        simp only [Res.bind, hf, UN.toPrimStep]
        rw [if_pos le_rfl]
        simp [BitSlice.set, BitSlice.setOpt, a1, Res.ofOption]
  rw [high _ h]
  rfl

theorem toPrimTruncating_small (size : Nat) (v : Bytes) (h : v.length ≤ size) :
    UN.toPrimTruncating size v = .ok (BitVec.ofNat _ (val v)) := by
  unfold UN.toPrimTruncating
  obtain ⟨arr, h1, h2, h3⟩ := copy_loop v (fun i => v.getD i 0) size v.length h
    (fun _ _ => rfl) rfl
  rw [h1]
  simp only [Res.bind]
  congr 1
  apply BitVec.eq_of_toNat_eq
  rw [ofLeBytes_toNat, h3, BitVec.toNat_ofNat]

theorem toPrimTruncating_panic (size : Nat) (v : Bytes) (h : size < v.length) :
    UN.toPrimTruncating size v = .panic := by
  unfold UN.toPrimTruncating
  set f := (fun i (arr : Bytes) => BitSlice.set arr i (v.getD i 0)) with hf
  have low : ∀ n ≤ size, ∃ arr : Bytes, arr.length = size ∧
      forUpM n f (List.replicate size 0) = .ok arr := by
    intro n hn
    induction n with
    | zero => exact ⟨_, by simp, rfl⟩
    | succ n ih =>
      obtain ⟨arr, a1, a2⟩ := ih (by omega)
      refine ⟨arr.set n (v.getD n 0), by simpa using a1, ?_⟩
      rw [forUpM, a2]
      simp only [Res.bind, hf]
      rw [set_eq _ _ _ (by omega)]
  have high : ∀ n, size < n → forUpM n f (List.replicate size 0) = .panic := by
    intro n hn
    induction n with
    | zero => omega
    | succ n ih =>
      by_cases h' : size < n
      · rw [forUpM, ih h']; rfl
      · have e : n = size := by omega
        subst e
        obtain ⟨arr, a1, a2⟩ := low n le_rfl
        rw [forUpM, a2]
        simp only [Res.bind, hf]
        simp [BitSlice.set, BitSlice.setOpt, a1, Res.ofOption]
  rw [high _ h]
  rfl

/-- `U<N>::from_checked` for `N` at most the size of the primitive: always `Some`, truncated. -/
theorem fromPrimChecked_trunc (n size : Nat) (v : BitVec (8 * size)) (h : n ≤ size) :
    ∃ a, UN.fromPrimChecked n size v = .ok (some a) ∧ a.length = n ∧
      val a = v.toNat % 256 ^ n := by
  have hpv := pv_leBytes size v n h
  have key : ∃ arr : Bytes, arr.length = n ∧ val arr = v.toNat % 256 ^ n ∧
      forUpM n (fun i arr => (BitSlice.get (leBytes size v) i).bind fun b => BitSlice.set arr i b)
        (List.replicate n 0) = .ok arr ∧
      forUpM n (UN.fromPrimStep n (leBytes size v)) (some (List.replicate n 0)) = .ok (some arr) := by
    have loop : ∀ k ≤ n, ∃ arr : Bytes, arr.length = n ∧
        (∀ j, arr.getD j 0 = if j < k then (leBytes size v).getD j 0 else 0) ∧
        forUpM k (fun i arr => (BitSlice.get (leBytes size v) i).bind fun b =>
          BitSlice.set arr i b) (List.replicate n 0) = .ok arr ∧
        forUpM k (UN.fromPrimStep n (leBytes size v)) (some (List.replicate n 0)) = .ok (some arr) := by
      intro k hk
      induction k with
      | zero => exact ⟨_, by simp, fun j => by rw [getD_replicate]; simp, rfl, rfl⟩
      | succ k ih =>
        obtain ⟨arr, a1, a2, a3, a4⟩ := ih (by omega)
        refine ⟨arr.set k ((leBytes size v).getD k 0), by simpa using a1, fun j => ?_, ?_, ?_⟩
        · rw [getD_set, a2]
          by_cases h : k = j
          · subst h; rw [if_pos ⟨rfl, by omega⟩, if_pos (by omega)]
          · rw [if_neg (by omega)]
            by_cases h' : j < k
            · rw [if_pos h', if_pos (by omega)]
            · rw [if_neg h', if_neg (by omega)]
        · rw [forUpM, a3]
          simp only [Res.bind]
          rw [get_eq _ _ (by rw [leBytes_length]; omega)]
          simp only
          rw [set_eq _ _ _ (by omega)]
        · rw [forUpM, a4]
          simp only [Res.bind, UN.fromPrimStep]
          rw [get_eq _ _ (by rw [leBytes_length]; omega)]
          simp only
          rw [if_pos (by omega), set_eq _ _ _ (by omega)]
    obtain ⟨arr, a1, a2, a3, a4⟩ := loop n le_rfl
    refine ⟨arr, a1, ?_, a3, a4⟩
    rw [← pv_length arr, a1, pv_congr (t := leBytes size v), hpv, Nat.pow_mul]
    intro j hj
    rw [a2, if_pos hj]
  obtain ⟨arr, a1, a2, a3, a4⟩ := key
  refine ⟨arr, ?_, a1, a2⟩
  unfold UN.fromPrimChecked
  simp only
  split
  · rw [a3]; rfl
  · exact a4

/-- `U<N>::from_checked` for `N` above the size of the primitive: always a panic. -/
theorem fromPrimChecked_panic (n size : Nat) (v : BitVec (8 * size)) (h : size < n) :
    UN.fromPrimChecked n size v = .panic := by
  unfold UN.fromPrimChecked
  simp only [show size ≤ n by omega, if_true]
  set f := (fun i (arr : Bytes) => (BitSlice.get (leBytes size v) i).bind fun b =>
    BitSlice.set arr i b) with hf
  have low : ∀ k ≤ size, ∃ arr : Bytes, arr.length = n ∧
      forUpM k f (List.replicate n 0) = .ok arr := by
    intro k hk
    induction k with
    | zero => exact ⟨_, by simp, rfl⟩
    | succ k ih =>
      obtain ⟨arr, a1, a2⟩ := ih (by omega)
      refine ⟨arr.set k ((leBytes size v).getD k 0), by simpa using a1, ?_⟩
      rw [forUpM, a2]
      simp only [Res.bind, hf]
      rw [get_eq _ _ (by rw [leBytes_length]; omega)]
      simp only
      rw [set_eq _ _ _ (by omega)]
  have high : ∀ k, size < k → forUpM k f (List.replicate n 0) = .panic := by
    intro k hk
    induction k with
    | zero => omega
    | succ k ih =>
      by_cases h' : size < k
      · rw [forUpM, ih h']; rfl
      · have e : k = size := by omega
        subst e
        obtain ⟨arr, a1, a2⟩ := low k le_rfl
        rw [forUpM, a2]
        simp only [Res.bind, hf]
        have hl : (leBytes k v)[k]? = none := by
          rw [List.getElem?_eq_none_iff, leBytes_length]
        simp [BitSlice.get, BitSlice.getOpt, hl, Res.ofOption]
  rw [high _ h]
  rfl

theorem toUsize_spec (v : Bytes) :
    UN.toUsize v = if v.length ≤ 8 then .ok (val v) else .panic := by
  unfold UN.toUsize
  split
  · rename_i h
    rw [toPrimChecked_small 8 v h]
    simp only [Res.bind, Res.ofOption]
    congr 1
    rw [BitVec.toNat_ofNat, Nat.mod_eq_of_lt]
    exact Nat.lt_of_lt_of_le (val_lt v)
      (Nat.pow_le_pow_right (by norm_num) (Nat.mul_le_mul_left _ h))
  · rename_i h
    rw [toPrimChecked_panic 8 v (by omega)]
    rfl

/-! ## Bit operators -/

theorem getD_zipWith {w : Nat} (f : BitVec w → BitVec w → BitVec w) (a b : List (BitVec w))
    (hl : a.length = b.length) (j : Nat) :
    (List.zipWith f a b).getD j 0
      = if j < a.length then f (a.getD j 0) (b.getD j 0) else 0 := by
  by_cases h : j < a.length
  · rw [if_pos h]
    simp [List.getD_eq_getElem?_getD, h, show j < b.length by omega]
  · rw [if_neg h, getD_of_ge _ _ (by simp; omega)]

theorem testBit_zipWith {w : Nat} (hw : 0 < w) (f : BitVec w → BitVec w → BitVec w)
    (g : Bool → Bool → Bool)
    (hfg : ∀ x y i, i < w → (f x y).getLsbD i = g (x.getLsbD i) (y.getLsbD i))
    (a b : List (BitVec w)) (hl : a.length = b.length) (k : Nat) :
    (val (List.zipWith f a b)).testBit k
      = (decide (k < w * a.length) && g ((val a).testBit k) ((val b).testBit k)) := by
  rw [testBit_val hw, testBit_val hw, testBit_val hw, getD_zipWith f a b hl]
  have hlt : k / w < a.length ↔ k < w * a.length := by
    rw [Nat.mul_comm]; exact Nat.div_lt_iff_lt_mul hw
  by_cases h : k / w < a.length
  · rw [if_pos h, hfg _ _ _ (Nat.mod_lt _ hw)]
    simp [hlt.mp h]
  · rw [if_neg h]
    simp only [show ¬ k < w * a.length by rw [← hlt]; exact h, decide_false, Bool.false_and]
    simp

end Verif
