import Verif.Klm.ChartLoop
/-!
# What a chart state guarantees
-/

namespace Cdec.Klm.LM
open Search

variable {K : Type} [AddCommGroup K] {s : Search K}

/-- The score `P` and right state `R` account for the fragment `f` (newest word first) after
every permitted history, up to the debt `C` of its left edge. -/
def DoneOn (s : Search K) (V : List Word → Prop) (C : List Word → K) (f : List Word)
    (R : State K) (P : K) : Prop :=
  ∀ v, V v → Suff s R (f ++ v) ∧ s.ss f v + resid s [] (f ++ v) R.length = P + C v

/-- A fragment all of whose words are in the left edge. -/
structure OpenInv (s : Search K) (f : List Word) (left : List (List Word)) (R : State K) (P : K) :
    Prop where
  left : left = ptrs f
  words : R.words = f
  backoff : R.backoff = bos s [] f
  ext : f ≠ [] → s.Ext f
  dep : AllDep s f
  acc : P = rst s f

/-- A fragment whose left edge is settled. -/
def FullInv (s : Search K) (f : List Word) (left : List (List Word)) (R : State K) (P : K) : Prop :=
  ∃ q xs, f = q ++ xs ∧ left = ptrs xs ∧ AllDep s xs ∧
    DoneOn s (fun _ => True) (leftC s xs) f R P

def Inv (s : Search K) (f : List Word) (rs : RS K) (P : K) : Prop :=
  (rs.done = false ∧ OpenInv s f rs.left rs.right P) ∨
  (rs.done = true ∧ FullInv s f rs.left rs.right P)

def Frag (s : Search K) (f : List Word) (cs : ChartState K) (P : K) : Prop :=
  (cs.left.full = false ∧ OpenInv s f cs.left.pointers cs.right P) ∨
  (cs.left.full = true ∧ FullInv s f cs.left.pointers cs.right P)

theorem DoneOn.terminal (w : s.WF) {V : List Word → Prop} {C : List Word → K} {f : List Word}
    {R : State K} {P : K} (h : DoneOn s V C f R P) (x : Word) :
    DoneOn s V C (x :: f) (fullScore s R x).2 (P + (fullScore s R x).1.prob) := by
  intro v hv
  obtain ⟨h1, h2⟩ := h v hv
  obtain ⟨h3, h4, h5⟩ := fullScore_spec w h1 x
  refine ⟨h4, ?_⟩
  rw [List.cons_append, h5, add_zero, ss_cons, ← h3]
  have : s.ss f v = P + C v - resid s [] (f ++ v) R.length := by rw [← h2]; abel
  rw [this]; abel

theorem Inv.terminal (w : s.WF) {f : List Word} {rs : RS K} {P : K} (h : Inv s f rs P) (x : Word) :
    Inv s (x :: f) (RS.terminal s rs x) (P + ((RS.terminal s rs x).prob - rs.prob)) := by
  rcases h with ⟨hd, ho⟩ | ⟨hd, q, xs, hf, hl, hdep, hD⟩
  · obtain ⟨k, hk⟩ := seb_spec w.toWF0 f x
    have hkle := hk.k_le
    have hfs1 : (fullScore s rs.right x).1 = { (scoreExceptBackoff s f x).1 with
        prob := (scoreExceptBackoff s f x).1.prob + ((bos s [] f).drop k).sum } := by
      have hkl : (scoreExceptBackoff s f x).1.ngramLength - 1 = k := by rw [hk.len]; omega
      unfold fullScore
      simp only [ho.words, ho.backoff, hkl]
    have hfs2 : (fullScore s rs.right x).2 = (scoreExceptBackoff s f x).2 := by
      unfold fullScore; rw [ho.words]
    generalize scoreExceptBackoff s f x = o at hk hfs1 hfs2
    have htake : ∀ (v : List Word) (j : Nat), j ≤ f.length → (f ++ v).take j = f.take j :=
      fun v j hj => List.take_append_of_le_length hj
    have hle := hk.le
    have htx : ∀ (v : List Word) (j : Nat), j ≤ f.length + 1 →
        (x :: (f ++ v)).take j = (x :: f).take j := by
      intro v j hj
      rw [← List.cons_append, List.take_append_of_le_length (by simpa using hj)]
    have hR : ∀ v, o.2.length ≤ (x :: (f ++ v)).length ∧
        o.2.words = (x :: (f ++ v)).take o.2.length ∧
        o.2.backoff = (bos s [] (x :: (f ++ v))).take o.2.length := by
      intro v
      refine ⟨by simp; omega, by rw [htx v _ hle]; exact hk.words, ?_⟩
      rw [← bos_take, htx v _ hle, bos_take]; exact hk.backoff
    by_cases hi : o.1.indep = true
    · have ht : RS.terminal s rs x = ⟨rs.left, o.2, true,
          rs.prob + (o.1.prob + ((bos s [] f).drop k).sum)⟩ := by
        unfold RS.terminal; simp [hd, hfs1, hfs2, hi]
      rw [ht]
      refine Or.inr ⟨rfl, [x], f, rfl, ho.left, ho.dep, ?_⟩
      intro v _
      have hno : ∀ j, f.length < j → j ≤ (f ++ v).length → ¬ s.Has (x :: (f ++ v).take j) := by
        intro j hj hl
        have hjv : (f ++ v).take j = f ++ v.take (j - f.length) := by
          rw [List.take_append, List.take_of_length_le (by omega)]
        rw [hjv]
        have := hk.ind hi (v.take (j - f.length)) (by
          intro h0
          have : (v.take (j - f.length)).length = 0 := by rw [h0]; rfl
          rw [List.length_take] at this; simp at hl; omega)
        simpa using this
      have hkey : ∀ j, o.2.length < j → j ≤ (x :: (f ++ v)).length →
          ¬ s.Ext ((x :: (f ++ v)).take j) := by
        intro j hj hl
        by_cases hjf : j ≤ f.length + 1
        · rw [htx v j hjf]; exact hk.noext j hj hjf
        · obtain ⟨j', rfl⟩ : ∃ j', j = j' + 1 := ⟨j - 1, by omega⟩
          rw [List.take_succ_cons]
          exact fun hE => hno j' (by omega) (by simp only [List.length_cons] at hl; omega) (ext_has w.two hE)
      obtain ⟨r1, r2, r3⟩ := hR v
      have hsc := score_match s x [] (f ++ v) k o.1.prob (by simp; omega)
        (by rw [htake v k hkle]; simpa using hk.prob)
        (fun j hj hl => by
          by_cases hjf : j ≤ f.length
          · rw [htake v j hjf]; simpa using hk.longer j hj hjf
          · simpa using hno j (by omega) hl)
      have hres := resid_append s [] f v k hkle
      unfold resid at hres
      rw [hres] at hsc
      simp only [List.nil_append] at hsc
      refine ⟨⟨r1, r2, r3, ?_⟩, ?_⟩
      · intro j hj hl x' hh
        refine hkey j hj hl (w.context x' _ ?_ hh)
        cases j with
        | zero => omega
        | succ j => simp
      · have hz : resid s [] (x :: (f ++ v)) o.2.length = 0 :=
          bos_drop_zero _ _ _ _ (fun j hj hl => by
            rw [List.nil_append]; exact boOf_not_ext w (hkey j hj hl))
        simp only [List.cons_append]
        rw [hz, add_zero, ss_cons, hsc, leftC, ho.acc]
        abel
    · have hi' : o.1.indep = false := by cases hc : o.1.indep <;> simp_all
      obtain ⟨hkf, e, he, hei, her, hel⟩ := hk.dep hi'
      have hlen : rs.right.length = f.length := by rw [State.length, ho.words]
      have ht : RS.terminal s rs x = ⟨rs.left ++ [x :: f], o.2,
          (if o.2.length ≠ f.length + 1 then true else false), rs.prob + e.rest⟩ := by
        unfold RS.terminal; simp [hd, hfs1, hfs2, hi', hel, her, hlen]
      rw [ht]
      have hdep : AllDep s (x :: f) := ⟨⟨e, he, hei⟩, ho.dep⟩
      have hleft : rs.left ++ [x :: f] = ptrs (x :: f) := by rw [ho.left]; rfl
      have hacc : P + (rs.prob + e.rest - rs.prob) = rst s (x :: f) := by
        rw [rst, restOf_get he, ho.acc]; abel
      by_cases hfull : o.2.length = f.length + 1
      · left
        refine ⟨by simp [hfull], hleft, ?_, ?_, ?_, hdep, hacc⟩
        · show o.2.words = _
          rw [hk.words, hfull, List.take_of_length_le (by simp)]
        · show o.2.backoff = _
          rw [hk.backoff, hfull, ← bos_take, List.take_of_length_le (by simp)]
        · intro _
          have := hk.ext (by omega)
          rwa [hfull, List.take_of_length_le (by simp)] at this
      · right
        refine ⟨by simp [hfull], [], x :: f, rfl, hleft, hdep, ?_⟩
        have hnoext : ¬ s.Ext (x :: f) := by
          have := hk.noext (f.length + 1) (by omega) (le_refl _)
          rwa [List.take_of_length_le (by simp)] at this
        intro v _
        obtain ⟨r1, r2, r3⟩ := hR v
        refine ⟨⟨r1, r2, r3, ?_⟩, ?_⟩
        · intro j hj hl x' hh
          simp only [List.nil_append] at hh
          by_cases hjf : j ≤ f.length + 1
          · rw [List.cons_append, htx v j hjf] at hh
            refine hk.noext j hj hjf (w.context x' _ ?_ hh)
            cases j with
            | zero => omega
            | succ j => simp
          · have hjv : (x :: f ++ v).take j = (x :: f) ++ v.take (j - (x :: f).length) := by
              rw [List.take_append, List.take_of_length_le (by simp; omega)]
            rw [hjv, ← List.cons_append] at hh
            exact hnoext (w.context x' _ (by simp) (w.prefix (by simp) hh))
        · have h1 := resid_append s [] (x :: f) v o.2.length (by simpa using hle)
          have hz : ((bos s [] (x :: f)).drop o.2.length).sum = 0 :=
            bos_drop_zero _ _ _ _ (fun j hj hl => by
              rw [List.nil_append]; exact boOf_not_ext w (hk.noext j hj (by simpa using hl)))
          simp only []
          rw [h1, hz, zero_add, List.nil_append, leftC, hacc]
          abel
  · have ht : RS.terminal s rs x = ⟨rs.left, (fullScore s rs.right x).2, rs.done,
        rs.prob + (fullScore s rs.right x).1.prob⟩ := by
      unfold RS.terminal; simp [hd]
    rw [ht]
    refine Or.inr ⟨hd, x :: q, xs, by rw [hf]; rfl, hl, hdep, ?_⟩
    have := hD.terminal w x
    have hP : P + (rs.prob + (fullScore s rs.right x).1.prob - rs.prob) =
        P + (fullScore s rs.right x).1.prob := by abel
    simp only [hP]
    exact this

/-! ## Non-terminals -/

/-- The end of `NonTerminal` when the fragment added has a settled left edge. -/
theorem LoopInv.finish_full {V : List Word → Prop} {C : List Word → K} {g f q xs : List Word}
    {nu : Nat} {back : List K} {words : List Word} {P Pin : K} {R : State K}
    (h : LoopInv s V C g xs nu back words P) (hf : f = q ++ xs)
    (hD : DoneOn s (fun _ => True) (leftC s xs) f R Pin) :
    DoneOn s V C (f ++ g) R (P + Pin + (back.take nu).sum) := by
  intro v hv
  obtain ⟨h1, h2, h3, h4, h5⟩ := h v hv
  obtain ⟨d1, d2⟩ := hD (g ++ v) trivial
  rw [List.append_assoc]
  refine ⟨d1, ?_⟩
  have hb := take_resid s xs (g ++ v) nu 0 (by omega) h1
  simp only [List.drop_zero] at hb
  rw [← h3] at hb
  rw [ss_append, add_right_comm, d2, leftC, ← hb]
  rw [ss_append] at h5
  have h5' : s.ss xs (g ++ v) = P + rst s xs + C v - resid s xs (g ++ v) nu - s.ss g v := by
    rw [← h5]; abel
  rw [h5']; abel

/-- The end of `NonTerminal` when all words of the fragment added are in its left edge. -/
theorem LoopInv.finish_open {V : List Word → Prop} {C : List Word → K} {g f : List Word}
    {nu : Nat} {back : List K} {words : List Word} {P Pin : K} {R : State K}
    {left : List (List Word)} (hnu : nu ≤ words.length)
    (h : LoopInv s V C g f nu back words P) (hO : OpenInv s f left R Pin) :
    DoneOn s V C (f ++ g) ⟨R.words ++ words.take nu, R.backoff ++ back.take nu⟩ (P + Pin) := by
  intro v hv
  obtain ⟨h1, h2, h3, h4, h5⟩ := h v hv
  have hlen : (State.mk (R.words ++ words.take nu) (R.backoff ++ back.take nu)).length =
      f.length + nu := by
    simp only [State.length, List.length_append, hO.words, List.length_take]; omega
  have hresid : resid s [] (f ++ (g ++ v)) (f.length + nu) = resid s f (g ++ v) nu := by
    unfold resid
    rw [bos_append, List.drop_append, List.drop_eq_nil_of_le (by rw [bos_length]; omega), bos_length,
      Nat.add_sub_cancel_left]
    simp
  rw [List.append_assoc]
  refine ⟨⟨?_, ?_, ?_, ?_⟩, ?_⟩
  · rw [hlen, List.length_append]; omega
  · rw [hlen]
    show R.words ++ words.take nu = _
    rw [hO.words, h2, List.take_append (l₁ := f), List.take_of_length_le (l := f) (by omega),
      Nat.add_sub_cancel_left]
  · rw [hlen]
    show R.backoff ++ back.take nu = _
    rw [hO.backoff, h3, bos_append s [] f, List.take_append (l₁ := bos s [] f),
      List.take_of_length_le (l := bos s [] f) (by rw [bos_length]; omega), bos_length,
      Nat.add_sub_cancel_left]
    simp
  · rw [hlen]
    intro k hk hl x hh
    have hkt : (f ++ (g ++ v)).take k = f ++ (g ++ v).take (k - f.length) := by
      rw [List.take_append, List.take_of_length_le (by omega)]
    rw [List.nil_append, hkt] at hh
    rw [List.length_append] at hl
    exact h4 (k - f.length) (by omega) (by omega) x hh
  · rw [hlen, hresid, h5, hO.acc]

theorem LoopInv.init {V : List Word → Prop} {C : List Word → K} {g : List Word} {R : State K}
    {P : K} (h : DoneOn s V C g R P) : LoopInv s V C g [] R.length R.backoff R.words P := by
  intro v hv
  obtain ⟨h1, h2⟩ := h v hv
  refine ⟨h1.le, ?_, ?_, h1.none, ?_⟩
  · rw [← h1.words, State.length, List.take_length]
  · rw [h1.backoff, take_take_le _ (le_refl _)]
  · simpa [rst] using h2

/-- The pointers and the fragment of a chart state. -/
theorem Frag.edge {f : List Word} {cs : ChartState K} {P : K} (h : Frag s f cs P) :
    ∃ q xs, f = q ++ xs ∧ cs.left.pointers = ptrs xs ∧ AllDep s xs ∧
      (cs.left.full = false → OpenInv s f cs.left.pointers cs.right P ∧ q = [] ∧ xs = f) ∧
      (cs.left.full = true → DoneOn s (fun _ => True) (leftC s xs) f cs.right P) := by
  rcases h with ⟨h1, h2⟩ | ⟨h1, q, xs, h2, h3, h4, h5⟩
  · exact ⟨[], f, rfl, h2.left, h2.dep, fun _ => ⟨h2, rfl, rfl⟩, fun hc => by rw [h1] at hc; simp at hc⟩
  · exact ⟨q, xs, h2, h3, h4, fun hc => (by rw [h1] at hc; simp at hc), fun _ => h5⟩

theorem state_eta (R : State K) : (⟨R.words ++ [], R.backoff ++ []⟩ : State K) = R := by
  cases R; simp

/-- `NonTerminal` when the left edge is settled. -/
theorem DoneOn.nonTerminal (w : s.WF) {V : List Word → Prop} {C : List Word → K}
    {f g : List Word} {rs : RS K} {inn : ChartState K} {P Pin : K} (hd : rs.done = true)
    (h : DoneOn s V C g rs.right P) (hI : Frag s f inn Pin) (p : K) :
    ∃ rs', RS.nonTerminal s rs inn p = some rs' ∧ rs'.done = true ∧ rs'.left = rs.left ∧
      DoneOn s V C (f ++ g) rs'.right (P + Pin + (rs'.prob - rs.prob - p)) := by
  obtain ⟨q, xs, hf, hp, hdep, hopen, hfull⟩ := hI.edge
  have hrem : inn.left.pointers = rem [] xs.reverse := by rw [hp, ptrs_eq_rem]
  have hL := LoopInv.init h
  by_cases hx : inn.left.pointers.length = 0
  · have hxs : xs = [] := by
      rw [hp, ptrs_length] at hx; exact List.length_eq_zero_iff.mp hx
    subst hxs
    cases hfl : inn.left.full with
    | true =>
      refine ⟨⟨rs.left, inn.right, true, rs.prob + p + rs.right.backoff.sum⟩,
        ?_, rfl, rfl, ?_⟩
      · unfold RS.nonTerminal; simp [hx, hfl]
      · intro v hv
        have := (hL.finish_full hf (hfull hfl)) v hv
        have hb : (rs.right.backoff.take rs.right.length).sum = rs.right.backoff.sum := by
          obtain ⟨h1, _⟩ := h v hv
          rw [List.take_of_length_le]
          rw [h1.backoff, List.length_take]; omega
        rw [hb] at this
        have hP : P + Pin + (rs.prob + p + rs.right.backoff.sum - rs.prob - p) =
            P + Pin + rs.right.backoff.sum := by abel
        simp only [hP]
        exact this
    | false =>
      obtain ⟨hO, hq, hxf⟩ := hopen hfl
      subst hxf
      refine ⟨{ rs with prob := rs.prob + p }, ?_, hd, rfl, ?_⟩
      · unfold RS.nonTerminal; simp [hx, hfl]
      · have h0 : Pin = 0 := by rw [hO.acc]; rfl
        have hP : P + Pin + (rs.prob + p - rs.prob - p) = P := by rw [h0]; abel
        simp only [hP, List.nil_append]
        exact h
  · by_cases hR : rs.right.length = 0
    · -- nothing to extend into
      have hL0 : LoopInv s V C g [] 0 rs.right.backoff rs.right.words P := by rw [hR] at hL; exact hL
      obtain ⟨u, hu, hL2⟩ := LoopInv.unRest w xs.reverse [] P _ hL0 (by simpa using hdep)
      rw [← hrem] at hu
      simp only [List.reverse_reverse, List.append_nil] at hL2
      refine ⟨⟨rs.left, inn.right, rs.done, rs.prob + p + u⟩, ?_, hd, rfl, ?_⟩
      · unfold RS.nonTerminal
        simp only [if_neg hx, if_pos hR, hd]
        simp only [List.length_nil, Nat.zero_add] at hu
        rw [hu]; simp
      · have hP : P + Pin + (rs.prob + p + u - rs.prob - p) = P + u + Pin := by abel
        simp only [hP]
        cases hfl : inn.left.full with
        | true =>
          have := hL2.finish_full hf (hfull hfl)
          simpa using this
        | false =>
          obtain ⟨hO, hq, hxf⟩ := hopen hfl
          rw [hxf] at hL2
          have := LoopInv.finish_open (by omega) hL2 hO
          simp only [List.take_zero] at this
          rwa [state_eta] at this
    · obtain ⟨out, o1, o2, o3, o4⟩ := ntLoop_done w inn xs.reverse [] rs.right.length rs.right.backoff
        { rs with prob := rs.prob + p } P hL (le_refl _) hd (by simpa using hdep)
      rw [← hrem] at o1
      simp only [List.length_nil, Nat.zero_add] at o1
      simp only [List.reverse_reverse, List.append_nil] at o4
      obtain ⟨r1, res⟩ := out
      simp only [] at o1 o2 o3 o4
      rcases o4 with ⟨nu, back, e1, e2, e3, e4⟩ | ⟨e1, e2, e3⟩
      · subst e1
        cases hfl : inn.left.full with
        | true =>
          refine ⟨⟨r1.left, inn.right, true, r1.prob + (back.take nu).sum⟩,
            ?_, rfl, o2, ?_⟩
          · unfold RS.nonTerminal; simp only [if_neg hx, if_neg hR, o1, hfl]; simp
          · have := e4.finish_full hf (hfull hfl)
            have hP : P + Pin + (r1.prob + (back.take nu).sum - rs.prob - p) =
                P + (r1.prob - (rs.prob + p)) + Pin + (back.take nu).sum := by abel
            simp only [hP]
            exact this
        | false =>
          obtain ⟨hO, hq, hxf⟩ := hopen hfl
          rw [hxf] at e4
          have hlen : ¬ inn.right.length < inn.left.pointers.length := by
            rw [State.length, hO.words, hO.left, ptrs_length]; omega
          refine ⟨⟨r1.left, ⟨inn.right.words ++ r1.right.words.take nu,
              inn.right.backoff ++ back.take nu⟩, r1.done, r1.prob⟩, ?_, o3, o2, ?_⟩
          · unfold RS.nonTerminal; simp only [if_neg hx, if_neg hR, o1, hfl, if_neg hlen]; simp
          · have := LoopInv.finish_open e3 e4 hO
            have hP : P + Pin + (r1.prob - rs.prob - p) =
                P + (r1.prob - (rs.prob + p)) + Pin := by abel
            simp only [hP, e2]
            exact this
      · subst e1
        refine ⟨r1, ?_, o3, o2, ?_⟩
        · unfold RS.nonTerminal; simp only [if_neg hx, if_neg hR, o1]
        · have hP : P + Pin + (r1.prob - rs.prob - p) =
                P + (r1.prob - (rs.prob + p)) + Pin := by abel
          rw [hP, e2]
          cases hfl : inn.left.full with
          | true =>
            have := e3.finish_full hf (hfull hfl)
            simpa using this
          | false =>
            obtain ⟨hO, hq, hxf⟩ := hopen hfl
            rw [hxf] at e3
            have := LoopInv.finish_open (by omega) e3 hO
            simp only [List.take_zero] at this
            rwa [state_eta] at this

/-- The end of `NonTerminal` from an open left edge, when the fragment added is settled. -/
theorem LoopND.finish_full {g f q xs : List Word} {nu : Nat} {back : List K} {rs : RS K}
    {P Pin : K} {R : State K} (h : LoopND s g xs nu back rs P) (hf : f = q ++ xs)
    (hD : DoneOn s (fun _ => True) (leftC s xs) f R Pin) :
    FullInv s (f ++ g) rs.left R (P + Pin + (back.take nu).sum) := by
  refine ⟨q, xs ++ g, by rw [hf, List.append_assoc], h.left, h.dep, ?_⟩
  intro v _
  obtain ⟨d1, d2⟩ := hD (g ++ v) trivial
  rw [List.append_assoc]
  refine ⟨d1, ?_⟩
  rw [ss_append, add_right_comm, d2, leftC, leftC, bos_append, List.sum_append, h.back_eq, ← h.acc,
    ss_append]
  abel

theorem LoopND.finish_open {g f : List Word} {nu : Nat} {back : List K} {rs : RS K}
    {P Pin : K} {R : State K} {left : List (List Word)} (h : LoopND s g f nu back rs P)
    (hO : OpenInv s f left R Pin) :
    OpenInv s (f ++ g) rs.left ⟨R.words ++ rs.right.words.take nu, R.backoff ++ back.take nu⟩
      (P + Pin) := by
  refine ⟨h.left, ?_, ?_, h.ext, h.dep, ?_⟩
  · show R.words ++ _ = _
    rw [hO.words, h.words, h.nu_eq, List.take_length]
  · show R.backoff ++ _ = _
    rw [hO.backoff, h.back_eq, bos_append, List.nil_append]
  · rw [hO.acc, h.acc]

theorem Settled.finish_full {g f q xs : List Word} {nu : Nat} {back : List K}
    {words : List Word} {left : List (List Word)}
    {P Pin : K} {R : State K} (h : Settled s g xs nu back words left P) (hf : f = q ++ xs)
    (hD : DoneOn s (fun _ => True) (leftC s xs) f R Pin) :
    FullInv s (f ++ g) left R (P + Pin + (back.take nu).sum) := by
  obtain ⟨q', xs', h1, h2, h3, h4⟩ := h
  exact ⟨q ++ q', xs', by rw [hf, List.append_assoc, h1, List.append_assoc], h2, h3,
    h4.finish_full hf hD⟩

theorem Settled.finish_open {g f : List Word} {nu : Nat} {back : List K}
    {words : List Word} {left left' : List (List Word)} {P Pin : K} {R : State K}
    (hnu : nu ≤ words.length) (h : Settled s g f nu back words left P)
    (hO : OpenInv s f left' R Pin) :
    FullInv s (f ++ g) left ⟨R.words ++ words.take nu, R.backoff ++ back.take nu⟩ (P + Pin) := by
  obtain ⟨q', xs', h1, h2, h3, h4⟩ := h
  exact ⟨q', xs', h1, h2, h3, LoopInv.finish_open hnu h4 hO⟩

/-- `NonTerminal`. -/
theorem Inv.nonTerminal (w : s.WF) {f g : List Word} {rs : RS K} {inn : ChartState K} {P Pin : K}
    (h : Inv s g rs P) (hI : Frag s f inn Pin) (p : K) :
    ∃ rs', RS.nonTerminal s rs inn p = some rs' ∧
      Inv s (f ++ g) rs' (P + Pin + (rs'.prob - rs.prob - p)) := by
  rcases h with ⟨hd, ho⟩ | ⟨hd, q, xs, hf, hl, hdep, hD⟩
  · obtain ⟨q, xs, hf, hp, hdep, hopen, hfull⟩ := hI.edge
    have hrem : inn.left.pointers = rem [] xs.reverse := by rw [hp, ptrs_eq_rem]
    have hlenR : rs.right.length = g.length := by rw [State.length, ho.words]
    have hND : LoopND s g [] rs.right.length rs.right.backoff { rs with prob := rs.prob + p } P := by
      refine ⟨hd, ho.left, ho.words, hlenR, ?_, ho.dep, ho.ext, ?_⟩
      · rw [ho.backoff, hlenR, ← bos_take, List.take_length]
      · rw [ho.acc]; simp [rst]
    by_cases hx : inn.left.pointers.length = 0
    · have hxs : xs = [] := by
        rw [hp, ptrs_length] at hx; exact List.length_eq_zero_iff.mp hx
      subst hxs
      cases hfl : inn.left.full with
      | true =>
        refine ⟨⟨rs.left, inn.right, true, rs.prob + p + rs.right.backoff.sum⟩, ?_, Or.inr ⟨rfl, ?_⟩⟩
        · unfold RS.nonTerminal; simp [hx, hfl]
        · have := hND.finish_full hf (hfull hfl)
          have hb : rs.right.backoff.take rs.right.length = rs.right.backoff := by
            rw [List.take_of_length_le]; rw [ho.backoff, bos_length, hlenR]
          rw [hb] at this
          have hP : P + Pin + (rs.prob + p + rs.right.backoff.sum - rs.prob - p) =
              P + Pin + rs.right.backoff.sum := by abel
          simp only [hP]
          exact this
      | false =>
        obtain ⟨hO, hq, hxf⟩ := hopen hfl
        subst hxf
        refine ⟨{ rs with prob := rs.prob + p }, ?_, Or.inl ⟨hd, ?_⟩⟩
        · unfold RS.nonTerminal; simp [hx, hfl]
        · have h0 : Pin = 0 := by rw [hO.acc]; rfl
          have hP : P + Pin + (rs.prob + p - rs.prob - p) = P := by rw [h0]; abel
          simp only [hP, List.nil_append]
          exact ho
    · by_cases hg : g = []
      · -- an empty fragment so far
        subst hg
        have hR : rs.right.length = 0 := by rw [hlenR]; rfl
        have hl0 : rs.left.length = 0 := by rw [ho.left]; rfl
        refine ⟨⟨inn.left.pointers, inn.right, inn.left.full, rs.prob + p⟩, ?_, ?_⟩
        · unfold RS.nonTerminal
          simp only [if_neg hx, if_pos hR, hd, hl0]; simp
        · have h0 : P = 0 := by rw [ho.acc]; rfl
          have hP : P + Pin + (rs.prob + p - rs.prob - p) = Pin := by rw [h0]; abel
          simp only [hP, List.append_nil]
          exact hI
      · have hR : rs.right.length ≠ 0 := by rw [hlenR]; simp [hg]
        obtain ⟨out, o1, o2⟩ := ntLoop_open w inn hg xs.reverse [] rs.right.length rs.right.backoff
          _ P hND (by simpa using hdep)
        rw [← hrem] at o1
        simp only [List.length_nil, Nat.zero_add] at o1
        simp only [List.reverse_reverse, List.append_nil] at o2
        obtain ⟨r1, res⟩ := out
        simp only [] at o1 o2
        have hlen : inn.left.full = false → ¬ inn.right.length < inn.left.pointers.length := by
          intro hfl
          obtain ⟨hO, _⟩ := hopen hfl
          rw [State.length, hO.words, hO.left, ptrs_length]; omega
        rcases o2 with ⟨nu, back, e1, e4⟩ | ⟨e0, ⟨nu, back, e1, e2, e3, e4⟩ | ⟨e1, e2, e3⟩⟩
        · subst e1
          cases hfl : inn.left.full with
          | true =>
            refine ⟨⟨r1.left, inn.right, true, r1.prob + (back.take nu).sum⟩, ?_, Or.inr ⟨rfl, ?_⟩⟩
            · unfold RS.nonTerminal; simp only [if_neg hx, if_neg hR, o1, hfl]; simp
            · have := e4.finish_full hf (hfull hfl)
              have hP : P + Pin + (r1.prob + (back.take nu).sum - rs.prob - p) =
                  P + (r1.prob - (rs.prob + p)) + Pin + (back.take nu).sum := by abel
              simp only [hP]
              exact this
          | false =>
            obtain ⟨hO, hq, hxf⟩ := hopen hfl
            rw [hxf] at e4
            refine ⟨⟨r1.left, ⟨inn.right.words ++ r1.right.words.take nu,
              inn.right.backoff ++ back.take nu⟩, r1.done, r1.prob⟩, ?_, Or.inl ⟨e4.done, ?_⟩⟩
            · unfold RS.nonTerminal; simp only [if_neg hx, if_neg hR, o1, hfl, if_neg (hlen hfl)]; simp
            · have := e4.finish_open hO
              have hP : P + Pin + (r1.prob - rs.prob - p) =
                  P + (r1.prob - (rs.prob + p)) + Pin := by abel
              simp only [hP]
              exact this
        · subst e1
          cases hfl : inn.left.full with
          | true =>
            refine ⟨⟨r1.left, inn.right, true, r1.prob + (back.take nu).sum⟩, ?_, Or.inr ⟨rfl, ?_⟩⟩
            · unfold RS.nonTerminal; simp only [if_neg hx, if_neg hR, o1, hfl]; simp
            · have := e4.finish_full hf (hfull hfl)
              have hP : P + Pin + (r1.prob + (back.take nu).sum - rs.prob - p) =
                  P + (r1.prob - (rs.prob + p)) + Pin + (back.take nu).sum := by abel
              simp only [hP]
              exact this
          | false =>
            obtain ⟨hO, hq, hxf⟩ := hopen hfl
            rw [hxf] at e4
            refine ⟨⟨r1.left, ⟨inn.right.words ++ r1.right.words.take nu,
              inn.right.backoff ++ back.take nu⟩, r1.done, r1.prob⟩, ?_, Or.inr ⟨e0, ?_⟩⟩
            · unfold RS.nonTerminal; simp only [if_neg hx, if_neg hR, o1, hfl, if_neg (hlen hfl)]; simp
            · have := Settled.finish_open e3 e4 hO
              have hP : P + Pin + (r1.prob - rs.prob - p) =
                  P + (r1.prob - (rs.prob + p)) + Pin := by abel
              simp only [hP, e2]
              exact this
        · subst e1
          refine ⟨r1, ?_, Or.inr ⟨e0, ?_⟩⟩
          · unfold RS.nonTerminal; simp only [if_neg hx, if_neg hR, o1]
          · have hP : P + Pin + (r1.prob - rs.prob - p) =
                P + (r1.prob - (rs.prob + p)) + Pin := by abel
            rw [hP, e2]
            cases hfl : inn.left.full with
            | true =>
              have := e3.finish_full hf (hfull hfl)
              simpa using this
            | false =>
              obtain ⟨hO, hq, hxf⟩ := hopen hfl
              rw [hxf] at e3
              have := Settled.finish_open (by omega) e3 hO
              simp only [List.take_zero] at this
              rwa [state_eta] at this
  · obtain ⟨rs', r1, r2, r3, r4⟩ := hD.nonTerminal w hd hI p
    obtain ⟨qi, xi, hfi, _⟩ := hI.edge
    exact ⟨rs', r1, Or.inr ⟨r2, f ++ q, xs, by rw [hf, List.append_assoc], by rw [r3, hl], hdep, r4⟩⟩

/-- `Finish`. -/
theorem Inv.finish (w : s.WF) {f : List Word} {rs : RS K} {P : K} (h : Inv s f rs P) :
    Frag s f (RS.finish s rs).1 P := by
  rcases h with ⟨hd, ho⟩ | ⟨hd, hF⟩
  · by_cases hl : rs.left.length = s.order - 1
    · right
      refine ⟨by simp [RS.finish, hl], [], f, rfl, ho.left, ho.dep, ?_⟩
      have hlf : f.length = s.order - 1 := by rw [← hl, ho.left, ptrs_length]
      have hlen : rs.right.length = f.length := by rw [State.length, ho.words]
      intro v _
      show Suff s rs.right (f ++ v) ∧ _ + resid s [] (f ++ v) rs.right.length = _
      refine ⟨⟨?_, ?_, ?_, ?_⟩, ?_⟩
      · rw [hlen]; simp
      · rw [hlen, List.take_left, ho.words]
      · rw [hlen, ← bos_take, List.take_left, ho.backoff]
      · rw [hlen]
        intro k hk hkl x hh
        have := (has_length w.two hh).2
        simp only [List.nil_append, List.length_cons, List.length_take] at this
        have := w.two
        omega
      · rw [hlen, resid_append s [] f v f.length (le_refl _),
          List.drop_eq_nil_of_le (by rw [bos_length]), List.nil_append, leftC, ho.acc]
        simp only [List.sum_nil, zero_add]
        abel
    · left
      exact ⟨by simp [RS.finish, hd, hl], ho⟩
  · right
    exact ⟨by simp [RS.finish, hd], hF⟩

theorem Inv.start (s : Search K) : Inv s [] (RS.start : RS K) 0 := by
  left
  refine ⟨rfl, rfl, rfl, rfl, fun h => absurd rfl h, trivial, rfl⟩

theorem Frag.begin {f : List Word} {cs : ChartState K} {P : K} (h : Frag s f cs P) (p : K) :
    Inv s f (RS.beginNonTerminal cs p) P := h

theorem DoneOn.bos (s : Search K) (b : Word) :
    DoneOn s (fun v => v = [b]) (fun _ => 0) [] (LM.beginSentence s b) 0 := by
  intro v hv
  subst hv
  obtain ⟨h1, h2⟩ := suff_bos s b
  exact ⟨h1, by rw [List.nil_append, h2, ss_nil]⟩

end Cdec.Klm.LM
