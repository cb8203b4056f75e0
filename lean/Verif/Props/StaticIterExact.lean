import Verif.Props.StaticIter

/-!
# C91, exactly: what becomes of the elements when collecting stops early
-/

namespace Verif

namespace StaticIter

theorem poll_exact {W T X O β : Type} {N : Nat} {sh : Shape T X O} {c : Coll T O}
    {R : Nat → List X → c.Uninit → Prop} (hR : Implements N sh c R) {it : SIter W T}
    {act : Nat → W → Option (T × W)} {Inv : Nat → it.St → Prop} (hy : Yields N it act Inv)
    (g : c.Uninit → c.Break → β) (f : c.Uninit → Nat → T → W → Option (Flow β c.Uninit × W))
    (hf : ∀ u i a w, f u i a w = (c.write u i a).map fun o => (o.mapBreak (g u), w))
    (n k : Nat) (hk : k + n = N) (xs : List X) (u : c.Uninit) (hu : R k xs u) (s : it.St)
    (hs : Inv k s) (w : W) :
    ∃ j ts w' s', j ≤ n ∧ runAll act (List.range' k j) w = some (ts, w') ∧ Inv (k + j) s' ∧
      ((j = n ∧ ∃ ys u', ts.map sh.cls = ys.map .inl ∧ R N (xs ++ ys) u' ∧
        pollFold it f (List.range' k n) u s w = some (.cont u', s', w')) ∨
       (∃ pre t ys o b u', ts = pre ++ [t] ∧ pre.map sh.cls = ys.map .inl ∧ sh.cls t = .inr o ∧
        R (k + ys.length) (xs ++ ys) u' ∧ c.finish (.brk b) = some o ∧
        pollFold it f (List.range' k n) u s w = some (.brk (g u' b), s', w'))) := by
  induction n generalizing k xs u s w with
  | zero =>
    rw [Nat.add_zero] at hk
    subst hk
    exact ⟨0, [], w, s, Nat.le_refl _, rfl, hs, .inl ⟨rfl, [], u, rfl, by simpa using hu, rfl⟩⟩
  | succ n ih =>
    obtain ⟨a, s1, w1, e1, e2, e3⟩ := hy.step k s w (by omega) hs
    rw [List.range'_succ]
    unfold pollFold
    rw [e2, Option.bind_some]
    simp only
    rw [hf]
    cases hc : sh.cls a with
    | inr o =>
      obtain ⟨b, g1, g2⟩ := hR.stop k xs u a o (by omega) hu hc
      rw [g1]
      refine ⟨1, [a], w1, s1, by omega, ?_, e3, .inr ⟨[], a, [], o, b, u, rfl, rfl, hc,
        by simpa using hu, g2, rfl⟩⟩
      simp [runAll, e1]
    | inl x =>
      obtain ⟨u', g1, g2⟩ := hR.store k xs u a x (by omega) hu hc
      rw [g1]
      simp only [Option.map_some, Option.bind_some, Flow.mapBreak]
      obtain ⟨j, ts, w', s', h1, h2, h3, h4⟩ := ih (k + 1) (by omega) _ u' g2 s1 e3 w1
      refine ⟨j + 1, a :: ts, w', s', by omega, ?_, by rwa [Nat.add_right_comm] at h3, ?_⟩
      · rw [List.range'_succ]
        unfold runAll
        rw [e1, Option.bind_some, h2]
        rfl
      · rcases h4 with ⟨q1, ys, u2, q2, q3, q4⟩ | ⟨pre, t, ys, o, b, u2, q1, q2, q3, q4, q5, q6⟩
        · refine .inl ⟨by omega, x :: ys, u2, by simp [hc, q2], by simpa using q3, q4⟩
        · refine .inr ⟨a :: pre, t, x :: ys, o, b, u2, by simp [q1], by simp [hc, q2], q3, ?_, q5,
            q6⟩
          have e : k + (x :: ys).length = k + 1 + ys.length := by simp; omega
          rw [e]
          simpa using q4

/-- Relabelling what a loop breaks with. -/
theorem pollFold_mapBreak {W α β β' γ : Type} (it : SIter W α) (h : β → β')
    (f : γ → Nat → α → W → Option (Flow β γ × W)) (f' : γ → Nat → α → W → Option (Flow β' γ × W))
    (hf : ∀ u i a w, f' u i a w = (f u i a w).map fun o => (o.1.mapBreak h, o.2))
    (is : List Nat) (acc : γ) (s : it.St) (w : W) :
    pollFold it f' is acc s w =
      (pollFold it f is acc s w).map fun r => (r.1.mapBreak h, r.2) := by
  induction is generalizing acc s w with
  | nil => rfl
  | cons i is ih =>
    unfold pollFold
    cases it.idx s i w with
    | none => rfl
    | some r =>
      simp only [Option.bind_some]
      rw [hf]
      cases f acc i r.1 r.2.2 with
      | none => rfl
      | some o =>
        obtain ⟨o1, o2⟩ := o
        cases o1 with
        | cont c => exact ih c r.2.1 o2
        | brk b => rfl

/-- C91, exactly, for any closure and any nesting of `Option` and `Result`: the elements of the array
are moved out from the front, each once. If none of the mapped elements decides the result, all are
moved out and stored, and no buffer is thrown away. If one does, the elements up to it have been moved
out, those after it stay in the slots of the iterator, and those stored before it are in a buffer that
is thrown away; neither the slots nor the buffer drop what they hold, so both are leaked. -/
theorem C91_leak_exact_partial {W α T X O : Type} (l : List α) (f : α → W → T × W)
    (sh : Shape T X O) (w : W) :
    ∃ n ts w', n ≤ l.length ∧
      runAll (Pipe.map (.array l) f).elem (List.range n) w = some (ts, w') ∧
      ((n = l.length ∧ ∃ xs : List X, ts.map sh.cls = xs.map .inl ∧
        collectState l.length (map (intoIter l) f) (sh.coll l.length) w =
          some (sh.done xs, List.replicate l.length none, w') ∧
        collectLost l.length (map (intoIter l) f) (sh.coll l.length) w =
          some (none, List.replicate l.length none, w')) ∨
       (∃ (pre : List T) (t : T) (xs : List X) (o : O) (u : (sh.coll l.length).Uninit),
        ts = pre ++ [t] ∧ pre.map sh.cls = xs.map .inl ∧ sh.cls t = .inr o ∧
        collectState l.length (map (intoIter l) f) (sh.coll l.length) w =
          some (o, List.replicate n none ++ (l.drop n).map some, w') ∧
        collectLost l.length (map (intoIter l) f) (sh.coll l.length) w =
          some (some u, List.replicate n none ++ (l.drop n).map some, w') ∧
        sh.buf l.length u = xs.map some ++ List.replicate (l.length - xs.length) none)) := by
  obtain ⟨R, hR, hbuf⟩ := shape_implements l.length sh
  have hy := intoIter_yields (W := W) l
  have hm : Yields l.length (map (intoIter l) f) (Pipe.map (.array l) f).elem
      (fun k s => s = (l.mapIdx fun i a => if i < k then none else some a)) := by
    refine ⟨hy.init, fun k s w hk hi => ?_⟩
    obtain ⟨a, s', w', e1, e2, e3⟩ := hy.step k s w hk hi
    refine ⟨(f a w').1, s', (f a w').2, ?_, ?_, e3⟩
    · simp only [Pipe.elem] at e1 ⊢; rw [e1]; rfl
    · simp only [map]; rw [e2]; rfl
  have hslots : ∀ n ≤ l.length, (l.mapIdx fun i a => if i < n then none else some a) =
      List.replicate n none ++ (l.drop n).map some := by
    intro n hn
    apply List.ext_getElem?
    intro i
    rw [List.getElem?_mapIdx]
    by_cases h : i < n
    · rw [List.getElem?_append_left (by simpa using h), List.getElem?_eq_getElem (by omega)]
      simp [h]
    · rw [List.getElem?_append_right (by simp; omega), List.length_replicate, List.getElem?_map,
        List.getElem?_drop, Nat.add_sub_cancel' (by omega)]
      simp [h]
  obtain ⟨n, ts, w', s', h1, h2, h3, h4⟩ := poll_exact hR hm (fun u b => (b, u)) _
    (fun _ _ _ _ => rfl) l.length 0 (by omega) [] _ hR.init _ hm.init w
  rw [← List.range_eq_range'] at h2 h4
  rw [Nat.zero_add] at h3
  rw [hslots n h1] at h3
  subst h3
  have p1 := pollFold_mapBreak (map (intoIter l) f) Prod.fst
    (fun acc i a w => ((sh.coll l.length).write acc i a).map fun o =>
      (o.mapBreak fun b => (b, acc), w))
    (fun acc i a w => ((sh.coll l.length).write acc i a).map fun o => (o, w)) (fun u i a w => by
      cases (sh.coll l.length).write u i a with
      | none => rfl
      | some o => cases o <;> rfl)
    (List.range l.length) (sh.coll l.length).uninit (map (intoIter l) f).st w
  have p2 := pollFold_mapBreak (map (intoIter l) f) Prod.snd
    (fun acc i a w => ((sh.coll l.length).write acc i a).map fun o =>
      (o.mapBreak fun b => (b, acc), w))
    (fun acc i a w => ((sh.coll l.length).write acc i a).map fun o => (o.mapBreak fun _ => acc, w))
    (fun u i a w => by
      cases (sh.coll l.length).write u i a with
      | none => rfl
      | some o => cases o <;> rfl)
    (List.range l.length) (sh.coll l.length).uninit (map (intoIter l) f).st w
  refine ⟨n, ts, w', h1, h2, ?_⟩
  rcases h4 with ⟨q1, ys, u2, q2, q3, q4⟩ | ⟨pre, t, ys, o, b, u2, q1, q2, q3, q4, q5, q6⟩
  · rw [q4] at p1 p2
    subst q1
    have e : List.replicate l.length none ++ (l.drop l.length).map some =
        (List.replicate l.length none : List (Option α)) := by simp
    refine .inl ⟨rfl, ys, q2, ?_, ?_⟩
    · unfold collectState
      rw [p1]
      simp only [Option.map_some, Option.bind_some, Flow.mapBreak]
      rw [hR.done _ _ q3, e]
      rfl
    · unfold collectLost
      rw [p2]
      simp only [Option.map_some, Flow.mapBreak]
      rw [e]
      rfl
  · rw [q6] at p1 p2
    rw [Nat.zero_add] at q4
    refine .inr ⟨pre, t, ys, o, u2, q1, q2, q3, ?_, ?_, (hbuf _ _ _ q4).2⟩
    · unfold collectState
      rw [p1]
      simp only [Option.map_some, Option.bind_some, Flow.mapBreak]
      rw [q5]
      rfl
    · unfold collectLost
      rw [p2]
      rfl

-- the second of three elements fails: 1 is in the lost buffer, 3 in the slots
example : collectState 3 (map (intoIter (W := Unit) [1, 2, 3])
      (fun a w => (if a = 2 then none else some (a * 10), w)))
      ((Shape.option (.array Nat)).coll 3) () = some (none, [none, none, some 3], ()) ∧
    (collectLost 3 (map (intoIter (W := Unit) [1, 2, 3])
      (fun a w => (if a = 2 then none else some (a * 10), w)))
      ((Shape.option (.array Nat)).coll 3) ()).map (fun r => r.1.map ((Shape.option (.array Nat)).buf 3))
      = some (some [some 10, none, none]) := ⟨by rfl, by rfl⟩

end StaticIter

end Verif
