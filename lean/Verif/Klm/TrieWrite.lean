import Verif.Klm.TrieValues
/-!
# What the second pass writes
-/
namespace Cdec.Klm.LM

variable {K : Type} [AddCommGroup K]

/-- The n-grams of an order. -/
def gramsOf (C : List (Call K)) (n : Nat) : List (List Word) := (C.map Call.gram).filter fun g => decide (g.length = n)

/-- The calls of an order. -/
def callsOf (C : List (Call K)) (n : Nat) : List (Call K) := C.filter fun c => decide (c.gram.length = n)

omit [AddCommGroup K] in
theorem gramsOf_eq (C : List (Call K)) (n : Nat) : gramsOf C n = (callsOf C n).map Call.gram := by
  unfold gramsOf callsOf
  rw [List.filter_map]
  rfl

omit [AddCommGroup K] in
theorem callsOf_append (C D : List (Call K)) (n : Nat) : callsOf (C ++ D) n = callsOf C n ++ callsOf D n := by
  unfold callsOf
  rw [List.filter_append]

omit [AddCommGroup K] in
theorem callsOf_single (c : Call K) (n : Nat) : callsOf [c] n = if c.gram.length = n then [c] else [] := by
  unfold callsOf
  by_cases h : c.gram.length = n <;> simp [h]

/-- The number of n-grams of an order before another. -/
def before (C : List (Call K)) (n : Nat) (g : List Word) : Nat := (gramsOf C n).countP fun x => decide (x < g)

omit [AddCommGroup K] in
theorem before_eq {D E : List (Call K)} {c : Call K} (h : ((D ++ c :: E).map Call.gram).Pairwise (· < ·)) (n : Nat) : before (D ++ c :: E) n c.gram = (callsOf D n).length := by
  unfold before
  rw [gramsOf_eq, callsOf_append, List.map_append, List.countP_append]
  rw [List.map_append, List.map_cons] at h
  obtain ⟨_, h1, h2⟩ := List.pairwise_append.1 h
  have e1 : ((callsOf D n).map Call.gram).countP (fun x => decide (x < c.gram)) = ((callsOf D n).map Call.gram).length := by
    rw [List.countP_eq_length]
    intro x hx
    obtain ⟨d, hd, rfl⟩ := List.mem_map.1 hx
    simp [h2 d.gram (List.mem_map.2 ⟨d, (List.mem_filter.1 hd).1, rfl⟩) c.gram (by simp)]
  have e2 : ((callsOf (c :: E) n).map Call.gram).countP (fun x => decide (x < c.gram)) = 0 := by
    rw [List.countP_eq_zero]
    intro x hx
    obtain ⟨d, hd, rfl⟩ := List.mem_map.1 hx
    have hd := (List.mem_filter.1 hd).1
    simp only [decide_eq_true_eq, not_lt]
    rcases List.mem_cons.1 hd with rfl | hd
    · exact le_refl _
    · exact le_of_lt ((List.pairwise_cons.1 h1).1 _ (List.mem_map.2 ⟨d, hd, rfl⟩))
  rw [e1, e2, List.length_map, Nat.add_zero]

/-- What is written for a call. -/
def SlotOf (f : List Word × Nat × K → K) (C : List (Call K)) (c : Call K) (s : Slot K) : Prop :=
  s.word = c.gram.getLastD 0 ∧
  match c with
  | .unigram _ => False
  | .blank g l q => s.prob = f (g, l, q) ∧ s.bo = 0 ∧ s.next = before C (g.length + 1) g
  | .middle r => s.prob = r.prob ∧ s.bo = r.bo ∧ (s.ext = false → r.ext = false) ∧ s.next = before C (r.g.length + 1) r.g
  | .longest r => s.prob = r.prob ∧ s.bo = 0

structure WInv (f : List Word × Nat × K → K) (orig : Nat → List (List Word)) (C D E : List (Call K)) (b : Writer K) : Prop where
  uniNext : b.uniNext = (gramsOf D 1).map fun p => before C 2 p
  tab : ∀ n, 2 ≤ n → List.Forall₂ (SlotOf f C) (callsOf D n) (b.tab n)
  values : ∀ n, b.values n = (blanksOf E n).map f
  sorted : ∀ n, (b.contexts n).Pairwise (· < ·)
  len : ∀ n, 2 ≤ n → ∀ c ∈ orig n, c.length = n
  one : b.contexts 1 = orig 1
  sub : ∀ n, ∀ c ∈ b.contexts n, c ∈ orig n
  done : ∀ n, 2 ≤ n → ∀ c ∈ orig n, c ∈ b.contexts n ∨ ∃ (i : Nat) (r : Rec K) (s : Slot K), (callsOf D n)[i]? = some (Call.middle r) ∧ r.g = c ∧ (b.tab n)[i]? = some s ∧ s.ext = true
  left : ∀ n, 2 ≤ n → (∀ c ∈ orig n, ∃ r : Rec K, Call.middle r ∈ C ∧ r.g = c) → ∀ c ∈ b.contexts n, ∃ r : Rec K, Call.middle r ∈ E ∧ r.g = c

theorem WInv.insert {f : List Word × Nat × K → K} {orig : Nat → List (List Word)} {C D E : List (Call K)} {c : Call K} {b : Writer K} (v : WInv f orig C D (c :: E) b)
    (hl : 2 ≤ c.gram.length) (hs : (D ++ c :: E = C)) (hso : (C.map Call.gram).Pairwise (· < ·)) {b' : Writer K} {s : Slot K}
    (h1 : b'.uniNext = b.uniNext) (h2 : ∀ n, b'.tab n = if n = c.gram.length then b.tab n ++ [s] else b.tab n) (h3 : SlotOf f C c s)
    (h4 : ∀ n, b'.values n = (blanksOf E n).map f)
    (h5 : ∀ n, n ≠ c.gram.length → b'.contexts n = b.contexts n)
    (h6 : b'.contexts c.gram.length = b.contexts c.gram.length ∧ (∀ r, c = .middle r → r.g ∉ b.contexts c.gram.length ∨ (b.contexts c.gram.length).head? ≠ some r.g) ∨
      b.contexts c.gram.length = c.gram :: b'.contexts c.gram.length ∧ s.ext = true ∧ ∃ r, c = .middle r) :
    WInv f orig C (D ++ [c]) E b' := by
  have hun : gramsOf (D ++ [c]) 1 = gramsOf D 1 := by
    rw [gramsOf_eq, gramsOf_eq, callsOf_append, callsOf_single, if_neg (by omega), List.append_nil]
  have hgt : ∀ d ∈ E, c.gram < d.gram := by
    intro d hd
    rw [← hs, List.map_append, List.map_cons] at hso
    exact (List.pairwise_cons.1 (List.pairwise_append.1 hso).2.1).1 _ (List.mem_map.2 ⟨d, hd, rfl⟩)
  have hpre : ∀ (n i : Nat) (x : Call K), (callsOf D n)[i]? = some x → (callsOf (D ++ [c]) n)[i]? = some x := by
    intro n i x hx
    rw [callsOf_append, List.getElem?_append_left (List.getElem?_eq_some_iff.1 hx).1]
    exact hx
  have hpre2 : ∀ (n i : Nat) (x : Slot K), (b.tab n)[i]? = some x → (b'.tab n)[i]? = some x := by
    intro n i x hx
    rw [h2]
    split
    · rw [List.getElem?_append_left (List.getElem?_eq_some_iff.1 hx).1]; exact hx
    · exact hx
  have hsubc : ∀ n, ∀ x ∈ b'.contexts n, x ∈ b.contexts n := by
    intro n x hx
    by_cases h : n = c.gram.length
    · subst h
      rcases h6 with ⟨h6, _⟩ | ⟨h6, _⟩
      · rwa [h6] at hx
      · rw [h6]; exact List.mem_cons_of_mem _ hx
    · rwa [h5 n h] at hx
  refine ⟨by rw [h1, v.uniNext, hun], fun n hn => ?_, h4, fun n => ?_, v.len, by rw [h5 1 (by omega), v.one], fun n x hx => v.sub n x (hsubc n x hx), fun n hn x hx => ?_, fun n hn ha x hx => ?_⟩
  · rw [callsOf_append, callsOf_single, h2]
    by_cases h : n = c.gram.length
    · rw [if_pos h.symm, if_pos h]
      exact List.rel_append (v.tab n hn) (.cons h3 .nil)
    · rw [if_neg (Ne.symm h), if_neg h, List.append_nil]
      exact v.tab n hn
  · by_cases h : n = c.gram.length
    · subst h
      have := v.sorted c.gram.length
      rcases h6 with ⟨h6, _⟩ | ⟨h6, _⟩
      · rwa [h6]
      · rw [h6] at this; exact (List.pairwise_cons.1 this).2
    · rw [h5 n h]; exact v.sorted n
  · rcases v.done n hn x hx with h | ⟨i, r, s', e1, e2, e3, e4⟩
    · by_cases hc : n = c.gram.length
      · subst hc
        rcases h6 with ⟨h6, _⟩ | ⟨h6, h7, r, h8⟩
        · left; rwa [h6]
        · rw [h6] at h
          rcases List.mem_cons.1 h with rfl | h
          · right
            have hlen : (b.tab c.gram.length).length = (callsOf D c.gram.length).length := (List.Forall₂.length_eq (v.tab _ hl)).symm
            refine ⟨(callsOf D c.gram.length).length, r, s, ?_, ?_, ?_, h7⟩
            · rw [callsOf_append, callsOf_single, if_pos rfl, List.getElem?_append_right (le_refl _), h8]
              simp
            · rw [h8]; rfl
            · rw [h2, if_pos rfl, List.getElem?_append_right (by omega), hlen]
              simp
          · left; exact h
      · left; rwa [h5 n hc]
    · exact .inr ⟨i, r, s', hpre n i _ e1, e2, hpre2 n i _ e3, e4⟩
  · obtain ⟨r, hr, hrx⟩ := v.left n hn ha x (hsubc n x hx)
    rcases List.mem_cons.1 hr with hr | hr
    · exfalso
      have hxn : n = c.gram.length ∨ n ≠ c.gram.length := em _
      have hgr : r.g = c.gram := by rw [← hr]; rfl
      rcases hxn with h | h
      · subst h
        rcases h6 with ⟨h6, h7⟩ | ⟨h6, _⟩
        · have hmem : r.g ∈ b.contexts c.gram.length := by rw [hrx]; exact hsubc _ x hx
          rcases h7 r hr.symm with h7 | h7
          · exact h7 hmem
          · -- the head is a later context
            cases hb : b.contexts c.gram.length with
            | nil => rw [hb] at hmem; cases hmem
            | cons y ys =>
              rw [hb] at h7 hmem
              have hy : y ≠ r.g := by simpa using h7
              have hlt : y < r.g := by
                have := v.sorted c.gram.length
                rw [hb] at this
                rcases List.mem_cons.1 hmem with h | h
                · exact absurd h.symm hy
                · exact (List.pairwise_cons.1 this).1 _ h
              obtain ⟨r', hr', e'⟩ := v.left c.gram.length hn ha y (by rw [hb]; simp)
              rcases List.mem_cons.1 hr' with hr' | hr'
              · rw [← hr'] at hgr
                exact hy (e' ▸ hgr.symm)
              · have := hgt _ hr'
                rw [← hgr] at this
                have e2 : (Call.middle r').gram = y := e'
                rw [e2] at this
                exact lt_asymm this hlt
        · have := v.sorted c.gram.length
          rw [h6] at this
          have h8 := (List.pairwise_cons.1 this).1 x hx
          rw [← hrx, hgr] at h8
          exact lt_irrefl _ h8
      · -- a context of another length
        exact h (by rw [← hgr, hrx]; exact (v.len n hn x (v.sub n x (hsubc n x hx))).symm)
    · exact ⟨r, hr, hrx⟩

theorem writer_insert_tab (b : Writer K) (g : List Word) (p bo : K) (e h : Bool) (n : Nat) :
    (b.insert g p bo e h).tab n = if n = g.length then b.tab n ++ [⟨g.getLastD 0, p, bo, e, if h then (b.tab (g.length + 1)).length else 0⟩] else b.tab n := rfl

theorem blanksOf_cons (c : Call K) (E : List (Call K)) (n : Nat) : blanksOf (c :: E) n = blanksOf [c] n ++ blanksOf E n := by
  unfold blanksOf
  rw [← List.filterMap_append]
  rfl

theorem WInv.step {f : List Word × Nat × K → K} {orig : Nat → List (List Word)} {C D E : List (Call K)} {c : Call K} {b : Writer K} (order : Nat) (v : WInv f orig C D (c :: E) b)
    (hl : 2 ≤ c.gram.length ∨ ∃ w, c = .unigram w) (hs : D ++ c :: E = C) (hso : (C.map Call.gram).Pairwise (· < ·)) :
    ∃ b', b.step order c = some b' ∧ WInv f orig C (D ++ [c]) E b' := by
  have hbe : ∀ n, before C n c.gram = (callsOf D n).length := fun n => by rw [← hs] at hso ⊢; exact before_eq hso n
  have hlen : ∀ n, 2 ≤ n → (b.tab n).length = before C n c.gram := fun n hn => by rw [hbe]; exact (List.Forall₂.length_eq (v.tab n hn)).symm
  cases c with
  | unigram w =>
    refine ⟨_, rfl, ?_⟩
    have hE : ∀ n, blanksOf (Call.unigram w :: E) n = blanksOf E n := fun n => rfl
    have hc : ∀ n, 2 ≤ n → callsOf (D ++ [Call.unigram w]) n = callsOf D n := by
      intro n hn
      rw [callsOf_append, callsOf_single, if_neg (by simp [Call.gram]; omega), List.append_nil]
    refine ⟨?_, fun n hn => by rw [hc n hn]; exact v.tab n hn, fun n => by rw [← hE]; exact v.values n, v.sorted, v.len, v.one, v.sub, fun n hn => by rw [hc n hn]; exact v.done n hn, fun n hn ha x hx => ?_⟩
    · simp only
      rw [v.uniNext, gramsOf_eq (D ++ _), callsOf_append, List.map_append, List.map_append, ← gramsOf_eq, hlen 2 (le_refl _), callsOf_single, if_pos (by simp [Call.gram])]
      rfl
    · obtain ⟨r, hr, e⟩ := v.left n hn ha x hx
      rcases List.mem_cons.1 hr with hr | hr
      · cases hr
      · exact ⟨r, hr, e⟩
  | blank g l q =>
    have hl : 2 ≤ g.length := by rcases hl with h | ⟨w, h⟩; exact h; cases h
    have hv : b.values g.length = f (g, l, q) :: (blanksOf E g.length).map f := by
      rw [v.values, blanksOf_cons]
      simp [blanksOf]
    simp only [Writer.step, hv]
    refine ⟨_, rfl, v.insert hl hs hso rfl (fun n => writer_insert_tab _ _ _ _ _ _ n) ⟨rfl, rfl, rfl, hlen _ (by show 2 ≤ g.length + 1; omega)⟩ (fun n => ?_) (fun n _ => rfl) (.inl ⟨rfl, fun r hr => by cases hr⟩)⟩
    show (if n = g.length then (blanksOf E g.length).map f else b.values n) = _
    split
    · rename_i h; rw [h]
    · rename_i h
      rw [v.values, blanksOf_cons]
      simp [blanksOf, Ne.symm h]
  | middle r =>
    have hl : 2 ≤ r.g.length := by rcases hl with h | ⟨w, h⟩; exact h; cases h
    have hE : ∀ n, blanksOf (Call.middle r :: E) n = blanksOf E n := fun n => rfl
    have hn := hlen (r.g.length + 1) (by omega)
    simp only [Writer.step]
    cases hb : b.contexts r.g.length with
    | nil =>
      refine ⟨_, rfl, v.insert hl hs hso rfl (fun n => writer_insert_tab _ _ _ _ _ _ n) ⟨rfl, rfl, rfl, id, hn⟩ (fun n => by rw [← hE]; exact v.values n) (fun n _ => rfl) (.inl ⟨rfl, fun r' hr => ?_⟩)⟩
      cases hr
      left
      show r.g ∉ b.contexts r.g.length
      rw [hb]
      simp
    | cons y ys =>
      simp only
      split
      · rename_i hy
        refine ⟨_, rfl, v.insert hl hs hso rfl (fun n => writer_insert_tab _ _ _ _ _ _ n) ⟨rfl, rfl, rfl, fun h => by simp at h, hn⟩ (fun n => by rw [← hE]; exact v.values n) (fun n h => ?_) (.inr ⟨?_, rfl, r, rfl⟩)⟩
        · show (if n = r.g.length then ys else b.contexts n) = b.contexts n
          exact if_neg h
        · show b.contexts r.g.length = r.g :: (if r.g.length = r.g.length then ys else b.contexts r.g.length)
          rw [if_pos rfl, hb, hy]
      · rename_i hy
        refine ⟨_, rfl, v.insert hl hs hso rfl (fun n => writer_insert_tab _ _ _ _ _ _ n) ⟨rfl, rfl, rfl, id, hn⟩ (fun n => by rw [← hE]; exact v.values n) (fun n _ => rfl) (.inl ⟨rfl, fun r' hr => ?_⟩)⟩
        cases hr
        right
        show (b.contexts r.g.length).head? ≠ some r.g
        rw [hb]
        simpa using hy
  | longest r =>
    have hl : 2 ≤ r.g.length := by rcases hl with h | ⟨w, h⟩; exact h; cases h
    have hE : ∀ n, blanksOf (Call.longest r :: E) n = blanksOf E n := fun n => rfl
    exact ⟨_, rfl, v.insert hl hs hso rfl (fun n => writer_insert_tab _ _ _ _ _ _ n) ⟨rfl, rfl, rfl⟩ (fun n => by rw [← hE]; exact v.values n) (fun n _ => rfl) (.inl ⟨rfl, fun r' hr => by cases hr⟩)⟩

theorem WInv.run {f : List Word × Nat × K → K} {orig : Nat → List (List Word)} {C : List (Call K)} (order : Nat) (hso : (C.map Call.gram).Pairwise (· < ·))
    (hl : ∀ c ∈ C, 2 ≤ c.gram.length ∨ ∃ w, c = .unigram w) (E : List (Call K)) : ∀ (D : List (Call K)) (b : Writer K), WInv f orig C D E b → D ++ E = C →
    ∃ b', Writer.run order b E = some b' ∧ WInv f orig C C [] b' := by
  induction E with
  | nil => intro D b v h; rw [List.append_nil] at h; subst h; exact ⟨b, rfl, v⟩
  | cons c E ih =>
    intro D b v h
    obtain ⟨b', h1, h2⟩ := v.step order (hl c (by rw [← h]; simp)) h hso
    obtain ⟨b'', h3, h4⟩ := ih (D ++ [c]) b' h2 (by simpa using h)
    exact ⟨b'', by simp [Writer.run, h1, h3], h4⟩

theorem populate_spec (n : Nat) : ∀ (w : Nat) (uni : Word → Wt K) (ctx : List (List Word)), ctx.Pairwise (· < ·) → (∀ c ∈ ctx, ∃ x : Nat, c = [x] ∧ w ≤ x ∧ x < w + n) →
    (populate uni ctx w n).2 = [] ∧ ∀ x, (populate uni ctx w n).1 x = if [x] ∈ ctx then ⟨(uni x).prob, (uni x).bo, true⟩ else uni x := by
  induction n with
  | zero =>
    intro w uni ctx _ h
    have : ctx = [] := by
      cases ctx with
      | nil => rfl
      | cons c cs => obtain ⟨x, _, h1, h2⟩ := h c (by simp); omega
    subst this
    exact ⟨rfl, fun x => rfl⟩
  | succ n ih =>
    intro w uni ctx hs h
    cases ctx with
    | nil =>
      simp only [populate]
      exact ih (w + 1) uni [] .nil (by simp)
    | cons c cs =>
      obtain ⟨hs1, hs2⟩ := List.pairwise_cons.1 hs
      obtain ⟨y, rfl, hy1, hy2⟩ := h c (by simp)
      have hcs : ∀ c ∈ cs, ∃ x : Nat, c = [x] ∧ y < x ∧ x < w + (n + 1) := by
        intro c hc
        obtain ⟨x, rfl, h1, h2⟩ := h c (by simp [hc])
        have := hs1 _ hc
        rw [List.cons_lt_cons_iff] at this
        refine ⟨x, rfl, ?_, h2⟩
        rcases this with h | ⟨_, h⟩
        · exact h
        · exact absurd h (lt_irrefl _)
      by_cases hyw : y = w
      · have e : populate uni ([y] :: cs) w (n + 1) = populate (fun x => if x = w then ⟨(uni w).prob, (uni w).bo, true⟩ else uni x) cs (w + 1) n := by
          simp [populate, hyw]
        rw [e]
        subst hyw
        obtain ⟨h1, h2⟩ := ih (y + 1) (fun x => if x = y then ⟨(uni y).prob, (uni y).bo, true⟩ else uni x) cs hs2 (by
          intro c hc
          obtain ⟨x, rfl, h1, h2⟩ := hcs c hc
          exact ⟨x, rfl, by omega, by omega⟩)
        refine ⟨h1, fun x => ?_⟩
        rw [h2]
        by_cases hx : x = y
        · subst hx
          simp
        · simp [hx]
      · have e : populate uni ([y] :: cs) w (n + 1) = populate uni ([y] :: cs) (w + 1) n := by
          simp [populate, hyw]
        rw [e]
        obtain ⟨h1, h2⟩ := ih (w + 1) uni ([y] :: cs) hs (by
          intro c hc
          rcases List.mem_cons.1 hc with rfl | hc
          · exact ⟨y, rfl, by omega, by omega⟩
          · obtain ⟨x, rfl, h1, h2⟩ := hcs c hc
            exact ⟨x, rfl, by omega, by omega⟩)
        exact ⟨h1, h2⟩

end Cdec.Klm.LM
