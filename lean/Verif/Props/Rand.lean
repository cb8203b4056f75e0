import Verif.Model.Rand
import Verif.Spec.Val
import Verif.Spec.Signed
import Verif.Lemmas.Val
import Verif.Lemmas.IInt
import Mathlib.Data.BitVec
import Mathlib.SetTheory.Cardinal.Finite

/-!
# Random values are uniform (C147)
-/

namespace Verif

/-! ## C147 -/

/-- The number of results of a random generator with `N` words of `w` bits that are mapped to `n`. -/
noncomputable def ways {β : Type} (N w : Nat) (g : List (BitVec w) → β) (n : β) : Nat :=
  Nat.card {x : Fin N → BitVec w // g (List.ofFn x) = n}

private theorem card_bitVec (k : Nat) : Nat.card (BitVec k) = 2 ^ k := by
  rw [Nat.card_congr BitVec.equivFin.toEquiv, Nat.card_eq_fintype_card, Fintype.card_fin]

private theorem card_low (k : Nat) (c : BitVec 8) :
    Nat.card {w : BitVec (k + 8) // w.setWidth 8 = c} = 2 ^ k := by
  rw [← card_bitVec k]
  refine Nat.card_congr ⟨fun w => w.1.extractLsb' 8 k, fun h => ⟨h ++ c, ?_⟩, ?_, ?_⟩
  · ext i hi
    simp [BitVec.getElem_setWidth, BitVec.getLsbD_append, hi]
  · rintro ⟨w, rfl⟩
    simp only [Subtype.mk.injEq]
    ext i hi
    rw [BitVec.getElem_append]
    split
    · simp [*]
    · simp only [BitVec.getElem_extractLsb']
      rw [show 8 + (i - 8) = i by omega, BitVec.getLsbD_eq_getElem hi]
  · intro h
    ext i hi
    simp [BitVec.getLsbD_append, hi]

private theorem ways_val (k N : Nat) (n : Nat) (hn : n < 256 ^ N) :
    ways N (k + 8) (fun ws => val (ws.map fun w => w.setWidth 8)) n = 2 ^ (k * N) := by
  unfold ways
  induction N generalizing n with
  | zero =>
    have : n = 0 := by simpa using hn
    subst this
    rw [Nat.mul_zero, Nat.pow_zero, Nat.card_eq_one_iff_unique]
    exact ⟨⟨fun a b => Subtype.ext (Subsingleton.elim _ _)⟩, ⟨⟨Fin.elim0, by simp [val]⟩⟩⟩
  | succ N ih =>
    have h1 : n / 256 < 256 ^ N := by
      rw [Nat.div_lt_iff_lt_mul (by norm_num)]
      rwa [Nat.pow_succ] at hn
    have key : ∀ x : Fin (N + 1) → BitVec (k + 8),
        val ((List.ofFn x).map fun w => w.setWidth 8) = n ↔
        (x 0).setWidth 8 = BitVec.ofNat 8 n ∧
        val ((List.ofFn fun i => x (Fin.succ i)).map fun w => w.setWidth 8) = n / 256 := by
      intro x
      rw [List.ofFn_succ, List.map_cons, val]
      have hb : ((x 0).setWidth 8).toNat < 2 ^ 8 := BitVec.isLt _
      have h2 : (x 0).setWidth 8 = BitVec.ofNat 8 n ↔ ((x 0).setWidth 8).toNat = n % 2 ^ 8 := by
        rw [← BitVec.toNat_inj, BitVec.toNat_ofNat]
      rw [h2]
      omega
    let e : {x : Fin (N + 1) → BitVec (k + 8) //
        val ((List.ofFn x).map fun w => w.setWidth 8) = n} ≃
        {w : BitVec (k + 8) // w.setWidth 8 = BitVec.ofNat 8 n} ×
        {x : Fin N → BitVec (k + 8) // val ((List.ofFn x).map fun w => w.setWidth 8) = n / 256} :=
      { toFun := fun x =>
          (⟨x.1 0, ((key x.1).1 x.2).1⟩, ⟨fun i => x.1 (Fin.succ i), ((key x.1).1 x.2).2⟩)
        invFun := fun y => ⟨Fin.cons y.1.1 y.2.1, (key _).2 ⟨y.1.2, y.2.2⟩⟩
        left_inv := fun x => by
          apply Subtype.ext
          funext i
          refine Fin.cases ?_ (fun i => ?_) i <;> rfl
        right_inv := fun y => rfl }
    rw [Nat.card_congr e]
    rw [Nat.card_prod, card_low, ih _ h1, ← Nat.pow_add]
    congr 1
    ring

/-- C147: of the sequences of `N` words a generator may return, equally many give each of the `256^N`
values, and no sequence gives anything else. -/
theorem C147_sample (N : Nat) :
    (∀ x : Fin N → BitVec 32, (UN.sample (List.ofFn x)).length = N) ∧
    ∀ n < 256 ^ N, ways N 32 (fun ws => val (UN.sample ws)) n = 2 ^ (24 * N) :=
  ⟨fun x => by simp [UN.sample], fun n hn => ways_val 24 N n hn⟩

private theorem ways_sval {w : Nat} (N : Nat) (g : List (BitVec w) → Bytes)
    (hg : ∀ x : Fin N → BitVec w, (g (List.ofFn x)).length = N) (z : ℤ) (h1 : -(256 ^ N : ℤ) ≤ 2 * z)
    (h2 : 2 * z < 256 ^ N) :
    ∃ n, n < 256 ^ N ∧ ways N w (fun ws => sval (g ws)) z = ways N w (fun ws => val (g ws)) n := by
  have hpow : (0 : ℤ) < 256 ^ N := by positivity
  have hcast : ((256 ^ N : ℕ) : ℤ) = 256 ^ N := by push_cast; rfl
  refine ⟨(if 0 ≤ z then z else z + 256 ^ N).toNat, ?_, ?_⟩
  · zify
    split <;> omega
  · unfold ways
    refine Nat.card_congr (Equiv.subtypeEquivRight fun x => ?_)
    have hl := hg x
    have hv := val_lt (g (List.ofFn x))
    rw [modulus_bytes, hl] at hv
    simp only [sval, hl]
    split <;> split <;> constructor <;> intro h <;> omega

/-- C147: the same for `I<N>`: each of the `256^N` signed values arises from equally many sequences. -/
theorem C147_signed (N : Nat) :
    (∀ x : Fin N → BitVec 32, (IN.sample (List.ofFn x)).length = N) ∧
    ∀ z : ℤ, -(256 ^ N : ℤ) ≤ 2 * z → 2 * z < 256 ^ N →
      ways N 32 (fun ws => sval (IN.sample ws)) z = 2 ^ (24 * N) := by
  have hl : ∀ x : Fin N → BitVec 32, (IN.sample (List.ofFn x)).length = N :=
    fun x => by simp [IN.sample]
  refine ⟨hl, fun z h1 h2 => ?_⟩
  obtain ⟨n, hn, e⟩ := ways_sval N IN.sample hl z h1 h2
  rw [e]
  exact ways_val 24 N n hn

/-- C147: filling from random bytes gives each value, unsigned and signed, for exactly one choice of bytes. -/
theorem C147_fill (N : Nat) :
    (∀ x : Fin N → BitVec 8, (UN.fill (List.ofFn x)).length = N ∧ (IN.fill (List.ofFn x)).length = N) ∧
    (∀ n < 256 ^ N, ways N 8 (fun ws => val (UN.fill ws)) n = 1) ∧
    ∀ z : ℤ, -(256 ^ N : ℤ) ≤ 2 * z → 2 * z < 256 ^ N →
      ways N 8 (fun ws => sval (IN.fill ws)) z = 1 := by
  have h0 : ∀ ws : List (BitVec 8), ws.map (fun w => w.setWidth 8) = ws := fun ws => by simp
  have h : ∀ n < 256 ^ N, ways N 8 (fun ws => val ws) n = 1 := fun n hn => by
    have := ways_val 0 N n hn
    simpa [h0] using this
  refine ⟨fun x => by simp [UN.fill, IN.fill], h, fun z h1 h2 => ?_⟩
  obtain ⟨n, hn, e⟩ := ways_sval N IN.fill (fun x => by simp [IN.fill]) z h1 h2
  rw [e]
  exact h n hn

/-- One of the `2^48` pairs of words giving 258, and one giving the signed -2. -/
example : val (UN.sample [0xabcdef02#32, 0x12345601#32]) = 258 ∧ 258 < 256 ^ 2 ∧
    sval (IN.sample [0xabcdeffe#32, 0x123456ff#32]) = -2 ∧ val (UN.fill [2#8, 1#8]) = 258 := by
  decide

end Verif
