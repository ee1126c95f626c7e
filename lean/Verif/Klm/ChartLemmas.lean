import Verif.Klm.NGramScore
import Verif.Klm.ChartScore
/-!
# Lemmas on chart fragments
-/

namespace Cdec.Klm.LM
open Search

variable {K : Type} [AddCommGroup K] {s : Search K}

/-- The pointers to the n-grams that start at the left edge of a fragment (newest word
first), shortest first. -/
def ptrs : List Word → List (List Word)
  | [] => []
  | x :: xs => ptrs xs ++ [x :: xs]

/-- The pointers after those of `y` when the words `r` (in reading order) follow. -/
def rem : List Word → List Word → List (List Word)
  | _, [] => []
  | y, x :: r => (x :: y) :: rem (x :: y) r

theorem ptrs_rem (r y : List Word) : ptrs (r.reverse ++ y) = ptrs y ++ rem y r := by
  induction r generalizing y with
  | nil => simp [rem]
  | cons x r ih =>
    rw [List.reverse_cons, List.append_assoc, List.singleton_append, ih (x :: y)]
    simp [ptrs, rem]

theorem ptrs_eq_rem (xs : List Word) : ptrs xs = rem [] xs.reverse := by
  have := ptrs_rem xs.reverse []
  simpa [ptrs] using this

theorem ptrs_length (xs : List Word) : (ptrs xs).length = xs.length := by
  induction xs with
  | nil => rfl
  | cons x xs ih => simp [ptrs, ih]

/-- The rest cost held for an n-gram. -/
def restOf (s : Search K) (ng : List Word) : K := ((s.get ng).map (·.rest)).getD 0

/-- The rest costs of the n-grams at the left edge. -/
def rst (s : Search K) : List Word → K
  | [] => 0
  | x :: xs => restOf s (x :: xs) + rst s xs

/-- All n-grams at the left edge are held and marked as extending left. -/
def AllDep (s : Search K) : List Word → Prop
  | [] => True
  | x :: xs => (∃ e, s.get (x :: xs) = some e ∧ e.indep = false) ∧ AllDep s xs

theorem AllDep.suffix {q y : List Word} (h : AllDep s (q ++ y)) : AllDep s y := by
  induction q with
  | nil => exact h
  | cons a q ih => exact ih h.2

theorem ss_nil (s : Search K) (v : List Word) : s.ss [] v = 0 := rfl
theorem ss_cons (s : Search K) (x : Word) (f v : List Word) :
    s.ss (x :: f) v = s.sc x (f ++ v) + s.ss f v := rfl

theorem ss_append (s : Search K) (f g v : List Word) :
    s.ss (f ++ g) v = s.ss f (g ++ v) + s.ss g v := by
  induction f with
  | nil => simp [ss_nil]
  | cons x f ih =>
    rw [List.cons_append, ss_cons, ss_cons, ih, List.append_assoc]; abel

theorem resid_append (s : Search K) (y g v : List Word) (k : Nat) (hk : k ≤ g.length) :
    resid s y (g ++ v) k = ((bos s y g).drop k).sum + (bos s (y ++ g) v).sum := by
  unfold resid
  rw [bos_append, List.drop_append_of_le_length (by rw [bos_length]; exact hk), List.sum_append]

theorem unpack_get (w : s.WF) {x : Word} {y : List Word} {e : Entry K}
    (h : s.get (x :: y) = some e) : unpack s (x :: y) (y.length + 1) = some e := by
  cases y with
  | nil =>
    have : s.uni x = e := by simpa [Search.get] using h
    simp [unpack, this]
  | cons b t =>
    rw [get_cons2] at h
    split at h
    · simp [unpack, h]
    · simp at h

theorem restOf_get {ng : List Word} {e : Entry K} (h : s.get ng = some e) :
    restOf s ng = e.rest := by simp [restOf, h]

/-- What `ExtendLeft` on the n-gram `x :: y` returns, in terms of `ResumeScore`. -/
theorem extendLeft_spec (w : s.WF) {x : Word} {y A : List Word} {e : Entry K}
    (he : s.get (x :: y) = some e) (hi : e.indep = false) (back : List K) :
    ∃ k o, ResumeOut s (x :: y) A [] (x :: y).length o k ∧
      LM.extendLeft s A back (x :: y) (y.length + 1) =
        some (⟨o.2.2.prob + ((back.take A.length).drop k).sum - e.rest, o.2.2.rest - e.rest,
          o.2.2.ngramLength, o.2.2.indep, o.2.2.extendLeft⟩, o.1, o.2.1 - (y.length + 1)) := by
  obtain ⟨k, hk⟩ := resume_spec w.toWF0 A y.length (x :: y) [] (x :: y).length e he rfl
  refine ⟨k, _, hk, ?_⟩
  unfold LM.extendLeft
  rw [unpack_get w he]
  simp only [ite_self, hi]
  have h1 : (if y.length + 1 = 1 then false else false) = false := by split <;> rfl
  have hlen := hk.len
  simp only [List.length_cons, hi] at hlen
  simp only [Nat.add_sub_cancel, List.length_cons, hlen]
  rw [show y.length + 1 + k - (y.length + 1) = k by omega]

/-- `next_use` after `ExtendLeft`. -/
theorem nextUse_spec {z A : List Word} {o : List K × Nat × Ret K} {k : Nat}
    (h : ResumeOut s z A [] z.length o k) :
    o.2.1 - z.length ≤ A.length ∧
    o.1.take (o.2.1 - z.length) = (bos s z A).take (o.2.1 - z.length) ∧
    (∀ j, o.2.1 - z.length < j → j ≤ A.length → ¬ s.Ext (z ++ A.take j)) ∧
    (o.2.1 - z.length ≠ 0 → s.Ext (z ++ A.take (o.2.1 - z.length))) := by
  obtain ⟨m, hm, hb, hn⟩ := h.bo
  have hle : o.2.1 - z.length ≤ m := by rcases hn with h | h <;> omega
  refine ⟨by omega, ?_, ?_, ?_⟩
  · rw [hb, List.nil_append, List.take_take, Nat.min_eq_left hle]
  · rcases h.nu with ⟨h1, h2⟩ | ⟨j, hj1, hj2, hj3, hj4, hj5⟩
    · intro j hj hl; exact h2 j (by omega) hl
    · intro i hi hl; exact hj5 i (by omega) hl
  · rcases h.nu with ⟨h1, h2⟩ | ⟨j, hj1, hj2, hj3, hj4, hj5⟩
    · intro h0; omega
    · intro _; rw [hj3, Nat.add_sub_cancel_left]; exact hj4

/-- The invariant while the left edge of a fragment is extended into the words `g` already
there, when the left edge of the result is settled: for every permitted history `v` before
`g`, the accumulated score `P` accounts for `y ++ g`. -/
def LoopInv (s : Search K) (V : List Word → Prop) (C : List Word → K) (g y : List Word)
    (nu : Nat) (back : List K) (words : List Word) (P : K) : Prop :=
  ∀ v, V v → nu ≤ (g ++ v).length ∧ words.take nu = (g ++ v).take nu ∧
    back.take nu = (bos s y (g ++ v)).take nu ∧ NoEnt s y (g ++ v) nu ∧
    s.ss (y ++ g) v + resid s y (g ++ v) nu = P + rst s y + C v

theorem LoopInv.step (w : s.WF) {V : List Word → Prop} {C : List Word → K} {g y : List Word}
    {nu : Nat} {back : List K} {words : List Word} {P : K} (h : LoopInv s V C g y nu back words P)
    (hnu : nu ≤ words.length) {x : Word} {e : Entry K} (he : s.get (x :: y) = some e)
    (hi : e.indep = false) :
    ∃ ret bo nu', LM.extendLeft s (words.take nu) back (x :: y) (y.length + 1) =
        some (ret, bo, nu') ∧ nu' ≤ nu ∧ LoopInv s V C g (x :: y) nu' bo words (P + ret.prob) := by
  obtain ⟨k, o, ho, hx⟩ := extendLeft_spec w (A := words.take nu) he hi back
  have hlA : (words.take nu).length = nu := by rw [List.length_take]; omega
  obtain ⟨n1, n2, n3, _⟩ := nextUse_spec ho
  rw [hlA] at n1
  refine ⟨_, _, _, hx, by simpa using n1, ?_⟩
  intro v hv
  obtain ⟨h1, h2, h3, h4, h5⟩ := h v hv
  have hk : k ≤ nu := by have := ho.k_le; omega
  have htk : ∀ j, j ≤ nu → (words.take nu).take j = (g ++ v).take j := by
    intro j hj
    rw [h2, take_take_le _ hj]
  have hsc := score_match s x y (g ++ v) k o.2.2.prob (by omega)
    (by have := ho.prob; rwa [htk k hk] at this)
    (fun j hj hl => by
      by_cases hjn : j ≤ nu
      · have := ho.longer j hj (by omega)
        rwa [htk j hjn] at this
      · exact h4 j (by omega) hl x)
  rw [← take_resid s y (g ++ v) nu k hk h1] at hsc
  have hafter := after_step (a' := o.2.1 - (x :: y).length) (x := x) w h4
    (fun j hj hjn hl => by
      have := n3 j hj (by omega)
      rwa [htk j hjn] at this)
  refine ⟨Nat.le_trans n1 h1, ?_, ?_, hafter.1, ?_⟩
  · show words.take (o.2.1 - (x :: y).length) = (g ++ v).take (o.2.1 - (x :: y).length)
    rw [← htk _ n1, take_take_le _ n1]
  · show o.1.take (o.2.1 - (x :: y).length) = (bos s (x :: y) (g ++ v)).take (o.2.1 - (x :: y).length)
    rw [n2, ← bos_take, htk _ n1, bos_take]
  · show _ + resid s (x :: y) (g ++ v) (o.2.1 - (x :: y).length) = _
    rw [hafter.2, add_zero, List.cons_append, ss_cons, List.append_assoc, hsc, hlA, h3, rst,
      restOf_get he]
    have h5' : s.ss (y ++ g) v = P + rst s y + C v - resid s y (g ++ v) nu := by rw [← h5]; abel
    simp only [h5']; abel

theorem LoopInv.unRest (w : s.WF) {V : List Word → Prop} {C : List Word → K} {g : List Word}
    {words : List Word} (r : List Word) : ∀ (y : List Word) (P : K) (back : List K),
    LoopInv s V C g y 0 back words P → AllDep s (r.reverse ++ y) →
    ∃ u, LM.unRest s (rem y r) (y.length + 1) = some u ∧
      LoopInv s V C g (r.reverse ++ y) 0 [] words (P + u) := by
  induction r with
  | nil =>
    intro y P back h _
    refine ⟨0, rfl, ?_⟩
    intro v hv
    obtain ⟨h1, h2, h3, h4, h5⟩ := h v hv
    exact ⟨h1, h2, by simp, h4, by simpa using h5⟩
  | cons x r ih =>
    intro y P back h hd
    rw [List.reverse_cons, List.append_assoc, List.singleton_append] at hd ⊢
    obtain ⟨e, he, hi⟩ := (AllDep.suffix hd).1
    have hstep : LoopInv s V C g (x :: y) 0 [] words (P + (e.prob - e.rest)) := by
      intro v hv
      obtain ⟨h1, h2, h3, h4, h5⟩ := h v hv
      have hsc := score_match s x y (g ++ v) 0 e.prob (by omega)
        (by simpa using probOf_get w.two he)
        (fun j hj hl => h4 j hj hl x)
      have hafter := after_step (a' := 0) (x := x) w h4 (fun j hj hjn _ => by omega)
      refine ⟨by omega, by simp, by simp, hafter.1, ?_⟩
      rw [hafter.2, add_zero, List.cons_append, ss_cons, List.append_assoc, hsc, rst,
        restOf_get he]
      have h5' : s.ss (y ++ g) v = P + rst s y + C v - resid s y (g ++ v) 0 := by rw [← h5]; abel
      rw [h5']
      show e.prob + resid s y (g ++ v) 0 + _ = _
      abel
    obtain ⟨u, hu, hL⟩ := ih (x :: y) _ [] hstep hd
    refine ⟨(e.prob - e.rest) + u, ?_, by rw [← add_assoc]; exact hL⟩
    simp only [List.length_cons] at hu
    simp [rem, LM.unRest, unpack_get w he, hu]

/-- The end of the loop when the left edge was settled before: either the loop ran to the
end, or the early exit was taken, which is as if it had with nothing left to use. -/
theorem ntLoop_done (w : s.WF) (inn : ChartState K) {V : List Word → Prop} {C : List Word → K}
    {g : List Word} (r : List Word) : ∀ (y : List Word) (nu : Nat) (back : List K) (rs : RS K)
    (P : K), LoopInv s V C g y nu back rs.right.words P → nu ≤ rs.right.length →
    rs.done = true → AllDep s (r.reverse ++ y) →
    ∃ out, RS.ntLoop s inn (rem y r) (y.length + 1) nu back rs = some out ∧
      out.1.left = rs.left ∧ out.1.done = true ∧
      ((∃ nu' back', out.2 = some (nu', back') ∧ out.1.right = rs.right ∧ nu' ≤ rs.right.length ∧
          LoopInv s V C g (r.reverse ++ y) nu' back' rs.right.words (P + (out.1.prob - rs.prob))) ∨
       (out.2 = none ∧ out.1.right = inn.right ∧
          LoopInv s V C g (r.reverse ++ y) 0 [] rs.right.words (P + (out.1.prob - rs.prob)))) := by
  induction r with
  | nil =>
    intro y nu back rs P h hn hd _
    refine ⟨(rs, some (nu, back)), rfl, rfl, hd, Or.inl ⟨nu, back, rfl, rfl, hn, ?_⟩⟩
    simpa using h
  | cons x r ih =>
    intro y nu back rs P h hn hd ha
    rw [List.reverse_cons, List.append_assoc, List.singleton_append] at ha ⊢
    obtain ⟨e, he, hi⟩ := (AllDep.suffix ha).1
    obtain ⟨ret, bo, nu', hx, hnu, hL⟩ := h.step w hn he hi
    have hpr : RS.processRet rs ret = { rs with prob := rs.prob + ret.prob } := by
      simp [RS.processRet, hd]
    rw [rem, RS.ntLoop, hx]
    simp only [hpr]
    have hcont : ∀ rs1 : RS K, rs1 = { rs with prob := rs.prob + ret.prob } →
      ∃ out, RS.ntLoop s inn (rem (x :: y) r) (y.length + 1 + 1) nu' bo rs1 = some out ∧
      out.1.left = rs.left ∧ out.1.done = true ∧
      ((∃ nu' back', out.2 = some (nu', back') ∧ out.1.right = rs.right ∧ nu' ≤ rs.right.length ∧
          LoopInv s V C g (r.reverse ++ (x :: y)) nu' back' rs.right.words
            (P + (out.1.prob - rs.prob))) ∨
       (out.2 = none ∧ out.1.right = inn.right ∧
          LoopInv s V C g (r.reverse ++ (x :: y)) 0 [] rs.right.words
            (P + (out.1.prob - rs.prob)))) := by
      intro rs1 h1
      obtain ⟨out, o1, o2, o3, o4⟩ := ih (x :: y) nu' bo rs1 (P + ret.prob)
        (by rw [h1]; exact hL) (by rw [h1]; simp only []; omega) (by rw [h1]; exact hd) ha
      have hP : P + ret.prob + (out.1.prob - rs1.prob) = P + (out.1.prob - rs.prob) := by
        rw [h1]; simp only []; abel
      rw [hP] at o4
      rw [h1] at o2 o4
      exact ⟨out, o1, o2, o3, o4⟩
    split
    · next hne =>
      split
      · next h0 =>
        rw [h0] at hL
        obtain ⟨u, hu, hL2⟩ := LoopInv.unRest w r (x :: y) _ _ hL ha
        simp only [List.length_cons] at hu
        rw [hu]
        refine ⟨_, rfl, rfl, rfl, Or.inr ⟨rfl, rfl, ?_⟩⟩
        have : P + (rs.prob + ret.prob + u - rs.prob) = P + ret.prob + u := by abel
        simp only [this]
        exact hL2
      · refine hcont _ ?_
        cases rs; simp_all
    · exact hcont _ rfl

end Cdec.Klm.LM
