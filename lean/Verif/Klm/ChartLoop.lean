import Verif.Klm.ChartLemmas
/-!
# Extending the left edge of a fragment while the left edge of the result is open
-/

namespace Cdec.Klm.LM
open Search

variable {K : Type} [AddCommGroup K] {s : Search K}

/-- What a left edge `xs` still owes when the history `v` becomes known: the true scores of
its words instead of their rest costs, and the back-offs of the contexts that reach back
into `v`. -/
def leftC (s : Search K) (xs v : List Word) : K := s.ss xs v - rst s xs + (bos s xs v).sum

/-- While the left edge of the result is open, every word so far is in it. -/
structure LoopND (s : Search K) (g y : List Word) (nu : Nat) (back : List K) (rs : RS K) (P : K) :
    Prop where
  done : rs.done = false
  left : rs.left = ptrs (y ++ g)
  words : rs.right.words = g
  nu_eq : nu = g.length
  back_eq : back.take nu = bos s y g
  dep : AllDep s (y ++ g)
  ext : y ++ g ≠ [] → s.Ext (y ++ g)
  acc : P + rst s y = rst s (y ++ g)

/-- The left edge of the result has just been settled, or was settled during this loop. -/
def Settled (s : Search K) (g y : List Word) (nu : Nat) (back : List K) (words : List Word)
    (left : List (List Word)) (P : K) : Prop :=
  ∃ q xs, y ++ g = q ++ xs ∧ left = ptrs xs ∧ AllDep s xs ∧
    LoopInv s (fun _ => True) (leftC s xs) g y nu back words P

theorem LoopND.step (w : s.WF) {g y : List Word} {nu : Nat} {back : List K} {rs : RS K} {P : K}
    (h : LoopND s g y nu back rs P) (hg : g ≠ []) {x : Word} {e : Entry K}
    (he : s.get (x :: y) = some e) (hi : e.indep = false) :
    ∃ ret bo nu', LM.extendLeft s (rs.right.words.take nu) back (x :: y) (y.length + 1) =
        some (ret, bo, nu') ∧ nu' ≤ g.length ∧
      (RS.processRet rs ret).right = rs.right ∧
      ((nu' = g.length ∧ LoopND s g (x :: y) nu' bo (RS.processRet rs ret)
          (P + ((RS.processRet rs ret).prob - rs.prob))) ∨
       ((nu' = g.length → (RS.processRet rs ret).done = true) ∧
        Settled s g (x :: y) nu' bo g (RS.processRet rs ret).left
          (P + ((RS.processRet rs ret).prob - rs.prob)))) := by
  have hA : rs.right.words.take nu = g := by rw [h.words, h.nu_eq, List.take_length]
  rw [hA]
  obtain ⟨k, o, ho, hx⟩ := extendLeft_spec w (A := g) he hi back
  obtain ⟨n1, n2, n3, n4⟩ := nextUse_spec ho
  have hback : back.take g.length = bos s y g := by rw [← h.nu_eq]; exact h.back_eq
  rw [hback] at hx
  refine ⟨_, _, _, hx, n1, ?_, ?_⟩
  · unfold RS.processRet; simp only [h.done]; split
    · rfl
    · split <;> rfl
  change ((o.2.1 - (x :: y).length = g.length ∧ _) ∨ _)
  show (o.2.1 - (x :: y).length = g.length ∧ LoopND s g (x :: y) (o.2.1 - (x :: y).length) o.1 _ _) ∨
    ((o.2.1 - (x :: y).length = g.length → _) ∧
      Settled s g (x :: y) (o.2.1 - (x :: y).length) o.1 g _ _)
  generalize hnu : o.2.1 - (x :: y).length = nu' at *
  have hkle := ho.k_le
  have htake : ∀ (v : List Word) (j : Nat), j ≤ g.length → (g ++ v).take j = g.take j :=
    fun v j hj => List.take_append_of_le_length hj
  by_cases hind : o.2.2.indep = true
  · -- the n-gram found does not extend left
    right
    have hpr : ∀ (pr re : K) (nl : Nat) (el : List Word),
        RS.processRet rs ⟨pr, re, nl, o.2.2.indep, el⟩ =
        { rs with prob := rs.prob + pr, done := true } := by
      intro pr re nl el; simp [RS.processRet, h.done, hind]
    rw [hpr]
    refine ⟨fun _ => rfl, [x], y ++ g, rfl, h.left, h.dep, ?_⟩
    intro v _
    have hno : ∀ j, g.length < j → j ≤ (g ++ v).length → ¬ s.Has (x :: y ++ (g ++ v).take j) := by
      intro j hj hl
      have hjv : (g ++ v).take j = g ++ v.take (j - g.length) := by
        rw [List.take_append, List.take_of_length_le (by omega)]
      rw [hjv, ← List.append_assoc]
      refine ho.ind hind _ ?_
      intro h0
      have : (v.take (j - g.length)).length = 0 := by rw [h0]; rfl
      rw [List.length_take] at this; simp at hl; omega
    have hkey : ∀ j, nu' < j → j ≤ (g ++ v).length → ¬ s.Ext (x :: y ++ (g ++ v).take j) := by
      intro j hj hl
      by_cases hjg : j ≤ g.length
      · rw [htake v j hjg]; exact n3 j hj hjg
      · exact fun hE => hno j (by omega) hl (ext_has w.two hE)
    have hsc := score_match s x y (g ++ v) k o.2.2.prob (by simp; omega)
      (by rw [htake v k hkle]; exact ho.prob)
      (fun j hj hl => by
        by_cases hjg : j ≤ g.length
        · rw [htake v j hjg]; exact ho.longer j hj hjg
        · exact hno j (by omega) hl)
    have hres := resid_append s y g v k hkle
    unfold resid at hres
    rw [hres] at hsc
    refine ⟨by simp; omega, by rw [htake v _ n1], ?_, ?_, ?_⟩
    · rw [n2, ← bos_take, ← bos_take, htake v _ n1]
    · intro j hj hl x' hh
      exact hkey j hj hl (w.context x' _ (by simp) hh)
    · have hz : resid s (x :: y) (g ++ v) nu' = 0 :=
        bos_drop_zero _ _ _ _ (fun j hj hl => boOf_not_ext w (hkey j hj hl))
      rw [hz, add_zero, List.cons_append, ss_cons, List.append_assoc, hsc, leftC, rst,
        restOf_get he]
      have := h.acc
      simp only []
      rw [← this]
      abel
  · -- the n-gram found extends left
    have hind' : o.2.2.indep = false := by cases hc : o.2.2.indep <;> simp_all
    obtain ⟨hkg, e', he', hi', hr', hel⟩ := ho.dep hind'
    have hpr : ∀ (pr re : K) (nl : Nat) (el : List Word),
        RS.processRet rs ⟨pr, re, nl, o.2.2.indep, el⟩ =
        { rs with left := rs.left ++ [el], prob := rs.prob + re } := by
      intro pr re nl el; simp [RS.processRet, h.done, hind']
    rw [hpr]
    have hdep : AllDep s (x :: y ++ g) := ⟨⟨e', he', hi'⟩, h.dep⟩
    have hleft : rs.left ++ [o.2.2.extendLeft] = ptrs (x :: y ++ g) := by
      rw [h.left, hel]; rfl
    have hacc : P + (rs.prob + (o.2.2.rest - e.rest) - rs.prob) + rst s (x :: y) =
        rst s (x :: y ++ g) := by
      rw [List.cons_append, rst, rst, restOf_get he, hr', ← List.cons_append, restOf_get he', ← h.acc]
      abel
    by_cases hfull : nu' = g.length
    · left
      refine ⟨hfull, h.done, hleft, h.words, hfull, ?_, hdep, ?_, hacc⟩
      · rw [n2, hfull, ← bos_take, List.take_length]
      · intro _
        have h0 : g.length ≠ 0 := by simp [hg]
        have := n4 (by omega)
        rwa [hfull, List.take_length] at this
    · right
      refine ⟨fun hc => absurd hc hfull, [], x :: y ++ g, rfl, hleft, hdep, ?_⟩
      have hnoext : ¬ s.Ext (x :: y ++ g) := by
        have := n3 g.length (by omega) (le_refl _)
        rwa [List.take_length] at this
      intro v _
      have hNo : NoEnt s (x :: y) (g ++ v) nu' := by
        intro j hj hl x' hh
        by_cases hjg : j ≤ g.length
        · rw [htake v j hjg] at hh
          exact n3 j hj hjg (w.context x' _ (by simp) hh)
        · have hjv : (g ++ v).take j = g ++ v.take (j - g.length) := by
            rw [List.take_append, List.take_of_length_le (by omega)]
          rw [hjv, ← List.append_assoc, ← List.cons_append] at hh
          exact hnoext (w.context x' _ (by simp) (w.prefix (by simp) hh))
      refine ⟨by simp; omega, by rw [htake v _ n1], ?_, hNo, ?_⟩
      · rw [n2, ← bos_take, ← bos_take, htake v _ n1]
      · rw [resid_append s (x :: y) g v nu' n1]
        have hz : ((bos s (x :: y) g).drop nu').sum = 0 :=
          bos_drop_zero _ _ _ _ (fun j hj hl => boOf_not_ext w (n3 j hj hl))
        rw [hz, zero_add, leftC, ← hacc]
        simp only []
        abel

/-- The loop, started with an open left edge. -/
theorem ntLoop_open (w : s.WF) (inn : ChartState K) {g : List Word} (hg : g ≠ [])
    (r : List Word) : ∀ (y : List Word) (nu : Nat) (back : List K) (rs : RS K) (P : K),
    LoopND s g y nu back rs P → AllDep s (r.reverse ++ y) →
    ∃ out, RS.ntLoop s inn (rem y r) (y.length + 1) nu back rs = some out ∧
      ((∃ nu' back', out.2 = some (nu', back') ∧
          LoopND s g (r.reverse ++ y) nu' back' out.1 (P + (out.1.prob - rs.prob))) ∨
       (out.1.done = true ∧
        ((∃ nu' back', out.2 = some (nu', back') ∧ out.1.right.words = g ∧ nu' ≤ g.length ∧
            Settled s g (r.reverse ++ y) nu' back' g out.1.left (P + (out.1.prob - rs.prob))) ∨
         (out.2 = none ∧ out.1.right = inn.right ∧
            Settled s g (r.reverse ++ y) 0 [] g out.1.left (P + (out.1.prob - rs.prob)))))) := by
  induction r with
  | nil =>
    intro y nu back rs P h _
    refine ⟨(rs, some (nu, back)), rfl, Or.inl ⟨nu, back, rfl, ?_⟩⟩
    simpa using h
  | cons x r ih =>
    intro y nu back rs P h ha
    rw [List.reverse_cons, List.append_assoc, List.singleton_append] at ha ⊢
    obtain ⟨e, he, hi⟩ := (AllDep.suffix ha).1
    obtain ⟨ret, bo, nu', hx, hnu, hr, hcase⟩ := h.step w hg he hi
    rw [rem, RS.ntLoop, hx]
    simp only []
    have hlen : rs.right.length = g.length := by rw [State.length, h.words]
    have hg0 : g.length ≠ 0 := by simp [hg]
    rcases hcase with ⟨hn, hND⟩ | ⟨hdone, q, xs, hq, hleft, hdep, hL⟩
    · rw [if_neg (by rw [hlen]; simpa using hn)]
      obtain ⟨out, o1, o2⟩ := ih (x :: y) nu' bo _ _ hND ha
      refine ⟨out, o1, ?_⟩
      have hP : P + ((RS.processRet rs ret).prob - rs.prob) +
          (out.1.prob - (RS.processRet rs ret).prob) = P + (out.1.prob - rs.prob) := by abel
      rw [hP] at o2
      exact o2
    · -- the common continuation
      have hcont : ∀ rs1 : RS K, rs1.done = true → rs1.left = (RS.processRet rs ret).left →
          rs1.right = rs.right → rs1.prob = (RS.processRet rs ret).prob →
          ∃ out, RS.ntLoop s inn (rem (x :: y) r) (y.length + 1 + 1) nu' bo rs1 = some out ∧
          ((∃ nu' back', out.2 = some (nu', back') ∧
            LoopND s g (r.reverse ++ (x :: y)) nu' back' out.1 (P + (out.1.prob - rs.prob))) ∨
          (out.1.done = true ∧
            ((∃ nu' back', out.2 = some (nu', back') ∧ out.1.right.words = g ∧ nu' ≤ g.length ∧
              Settled s g (r.reverse ++ (x :: y)) nu' back' g out.1.left
                (P + (out.1.prob - rs.prob))) ∨
            (out.2 = none ∧ out.1.right = inn.right ∧
              Settled s g (r.reverse ++ (x :: y)) 0 [] g out.1.left
                (P + (out.1.prob - rs.prob)))))) := by
        intro rs1 h1 h2 h3 h4
        have hw : rs1.right.words = g := by rw [h3, h.words]
        obtain ⟨out, o1, o2, o3, o4⟩ := ntLoop_done w inn r (x :: y) nu' bo rs1 _
          (by rw [hw]; exact hL) (by rw [h3, hlen]; exact hnu) h1 ha
        have hP : P + ((RS.processRet rs ret).prob - rs.prob) + (out.1.prob - rs1.prob) =
            P + (out.1.prob - rs.prob) := by rw [h4]; abel
        rw [hP, hw] at o4
        have hq' : r.reverse ++ (x :: y) ++ g = (r.reverse ++ q) ++ xs := by
          rw [List.append_assoc, hq, List.append_assoc]
        have hl' : out.1.left = ptrs xs := by rw [o2, h2, hleft]
        refine ⟨out, o1, Or.inr ⟨o3, ?_⟩⟩
        rcases o4 with ⟨n, b, p1, p2, p3, p4⟩ | ⟨p1, p2, p3⟩
        · exact Or.inl ⟨n, b, p1, by rw [p2, hw], by rw [h3, hlen] at p3; exact p3,
            _, xs, hq', hl', hdep, p4⟩
        · exact Or.inr ⟨p1, p2, _, xs, hq', hl', hdep, p3⟩
      rw [hlen]
      split
      · split
        · next h0 =>
          rw [h0] at hL
          obtain ⟨u, hu, hL2⟩ := LoopInv.unRest w r (x :: y) _ _ hL ha
          simp only [List.length_cons] at hu
          rw [hu]
          refine ⟨_, rfl, Or.inr ⟨rfl, Or.inr ⟨rfl, rfl, r.reverse ++ q, xs, ?_, hleft, hdep, ?_⟩⟩⟩
          · rw [List.append_assoc, hq, List.append_assoc]
          · have : P + ((RS.processRet rs ret).prob + u - rs.prob) =
                P + ((RS.processRet rs ret).prob - rs.prob) + u := by abel
            simp only [this]
            exact hL2
        · exact hcont _ rfl rfl hr rfl
      · next hne =>
        exact hcont _ (hdone (by simpa using hne)) rfl hr rfl

end Cdec.Klm.LM
