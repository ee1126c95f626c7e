import Verif.Klm.TrieWrite
/-!
# The trie of an ARPA file
-/
namespace Cdec.Klm.LM

variable {K : Type}

/-- The record of a unigram. -/
def uniRec (uni : Word → Wt K) (w : Word) : Rec K := ⟨[w], (uni w).prob, (uni w).bo, (uni w).ext⟩

theorem recursiveInsert_spec {order vocab : Nat} (uni : Word → Wt K) {full : Nat → List (Rec K)} (h2 : 2 ≤ order)
    (hf : ∀ n, 2 ≤ n → n ≤ order → InOrder (full n) ∧ ∀ r ∈ full n, r.g.length = n ∧ ∀ w ∈ r.g, w < vocab) :
    ∃ R calls, recursiveInsert order vocab uni full = some calls ∧ CallsOk order R [] R calls ∧ InOrder R ∧
      ∀ r, r ∈ R ↔ (∃ w, w < vocab ∧ r = uniRec uni w) ∨ ∃ n, 2 ≤ n ∧ n ≤ order ∧ r ∈ full n := by
  let q0 : List (Rec K) := (List.range vocab).map (uniRec uni)
  let file : Nat → List (Rec K) := fun n => if n = 1 then q0 else full n
  let qs := (List.range' 1 order).map file
  have hqs : q0 :: (List.range' 2 (order - 1)).map full = qs := by
    have : order = (order - 1) + 1 := by omega
    simp only [qs]
    rw [this, List.range'_succ, List.map_cons]
    congr 1
    refine List.map_congr_left fun n hn => ?_
    rw [List.mem_range'_1] at hn
    simp [file, show n ≠ 1 by omega]
  have hord : ∀ n, 1 ≤ n → n ≤ order → InOrder (file n) ∧ ∀ r ∈ file n, r.g.length = n ∧ ∀ w ∈ r.g, w < vocab := by
    intro n h1 h3
    by_cases h : n = 1
    · subst h
      simp only [file, if_pos]
      refine ⟨?_, fun r hr => ?_⟩
      · refine List.Pairwise.map _ (fun x y (hxy : x < y) => ?_) List.pairwise_lt_range
        simp only [uniRec]
        exact List.cons_lt_cons_iff.2 (.inl hxy)
      · obtain ⟨w, hw, rfl⟩ := List.mem_map.1 hr
        have : w < vocab := List.mem_range.1 hw
        simp [uniRec, this]
    · simp only [file, if_neg h]
      exact hf n (by omega) h3
  have hmem : ∀ n, n ∈ List.range' 1 order ↔ 1 ≤ n ∧ n ≤ order := by
    intro n
    rw [List.mem_range'_1]
    omega
  have hnd : (qs.flatten.map (·.g)).Nodup := by
    unfold List.Nodup
    rw [List.map_flatten, List.pairwise_flatten]
    refine ⟨fun l hl => ?_, ?_⟩
    · simp only [qs, List.map_map, List.mem_map, Function.comp_apply] at hl
      obtain ⟨n, hn, rfl⟩ := hl
      obtain ⟨h1, h3⟩ := (hmem n).1 hn
      have := (hord n h1 h3).1
      rw [List.pairwise_map]
      exact this.imp fun h => ne_of_lt h
    · simp only [qs, List.map_map]
      refine List.pairwise_map.2 ?_
      refine List.Pairwise.imp_of_mem (fun {x y} hx hy (hxy : x < y) => ?_) (List.pairwise_lt_range' (s := 1) (n := order))
      obtain ⟨hx1, hx2⟩ := (hmem x).1 hx
      obtain ⟨hy1, hy2⟩ := (hmem y).1 hy
      intro g hg g' hg' hgg
      obtain ⟨r, hr, rfl⟩ := List.mem_map.1 hg
      obtain ⟨r', hr', e⟩ := List.mem_map.1 hg'
      rw [← hgg] at e
      have h1 := ((hord x hx1 hx2).2 r hr).1
      have h3 := ((hord y hy1 hy2).2 r' hr').1
      rw [e] at h3
      omega
  obtain ⟨hp, hio⟩ := mergeAll_spec (qs.map List.length).sum qs (by rw [List.length_flatten]) (by
    intro q hq
    obtain ⟨n, hn, rfl⟩ := List.mem_map.1 hq
    obtain ⟨h1, h3⟩ := (hmem n).1 hn
    exact (hord n h1 h3).1) hnd
  have hR : ∀ r, r ∈ mergeAll (qs.map List.length).sum qs ↔ (∃ w, w < vocab ∧ r = uniRec uni w) ∨ ∃ n, 2 ≤ n ∧ n ≤ order ∧ r ∈ full n := by
    intro r
    rw [hp.mem_iff, ← hqs, List.flatten_cons, List.mem_append]
    refine or_congr ?_ ?_
    · simp only [q0, List.mem_map, List.mem_range]
      exact ⟨fun ⟨w, h1, h3⟩ => ⟨w, h1, h3.symm⟩, fun ⟨w, h1, h3⟩ => ⟨w, h1, h3.symm⟩⟩
    · simp only [List.mem_flatten, List.mem_map, List.mem_range'_1]
      constructor
      · rintro ⟨_, ⟨n, hn, rfl⟩, hr⟩
        exact ⟨n, hn.1, by omega, hr⟩
      · rintro ⟨n, h1, h3, hr⟩
        exact ⟨_, ⟨n, ⟨h1, by omega⟩, rfl⟩, hr⟩
  obtain ⟨cs, h3, h4⟩ := insertLoop_spec (order := order) (mergeAll (qs.map List.length).sum qs) [] ⟨[], fun _ => none⟩ ⟨by simp, .inl rfl, fun k h1 h2 => absurd h2 (by simp; omega)⟩ (by simpa using hio) (by
    intro r hr
    rw [List.nil_append]
    rcases (hR r).1 hr with ⟨w, hw, rfl⟩ | ⟨n, h1, h3, h4⟩
    · exact ⟨by simp [uniRec], (by show 1 ≤ order; omega), List.mem_map.2 ⟨uniRec uni w, hr, rfl⟩⟩
    · obtain ⟨h5, h6⟩ := (hf n h1 h3).2 r h4
      have hne : r.g ≠ [] := by intro h; rw [h] at h5; simp at h5; omega
      refine ⟨hne, by omega, ?_⟩
      cases hg : r.g with
      | nil => exact absurd hg hne
      | cons x t =>
        rw [hg] at h6
        exact List.mem_map.2 ⟨uniRec uni x, (hR _).2 (.inl ⟨x, h6 x (by simp), rfl⟩), rfl⟩)
  refine ⟨_, cs, ?_, by simpa using h4, hio, hR⟩
  rw [← h3, ← hqs]
  rfl

variable [AddCommGroup K] [DecidableEq K]

omit [AddCommGroup K] [DecidableEq K] in
theorem lookup_mem {D : List (List Word × K × K)} (hn : (D.map (·.1)).Nodup) {g : List Word} {y : K × K} : D.lookup g = some y ↔ (g, y) ∈ D := by
  induction D with
  | nil => simp
  | cons x D ih =>
    rw [List.map_cons, List.nodup_cons] at hn
    obtain ⟨x1, x2⟩ := x
    rw [List.lookup_cons]
    by_cases h : g = x1
    · subst h
      simp only [beq_self_eq_true, List.mem_cons, Prod.mk.injEq, true_and]
      constructor
      · intro h; cases h; exact .inl rfl
      · rintro (h | h)
        · rw [h]
        · exact absurd (List.mem_map.2 ⟨_, h, rfl⟩) hn.1
    · have hb : (g == x1) = false := by simpa using h
      rw [hb]
      simp only [List.mem_cons, Prod.mk.injEq, h, false_and, false_or]
      exact ih hn.2

omit [AddCommGroup K] [DecidableEq K] in
theorem look_mem {a : Spec.Arpa K} (hr : a.Regular) {g : List Word} (hg : 2 ≤ g.length) {y : K × K} : a.look g = some y ↔ g.length ≤ a.order ∧ (g, y) ∈ a.sect g.length := by
  match g, hg with
  | x :: z :: t, hg =>
    have e : a.look (x :: z :: t) = if (x :: z :: t).length ≤ a.order then (a.sect (x :: z :: t).length).lookup (x :: z :: t) else none := rfl
    rw [e]
    split
    · rename_i h
      rw [lookup_mem (hr.once _ hg h)]
      exact ⟨fun h' => ⟨h, h'⟩, fun h' => h'.2⟩
    · rename_i h
      exact ⟨fun h' => (by cases h'), fun h' => absurd h'.1 h⟩

/-- What the two passes are run on: the records of the file, with marks. -/
structure Source (a : Spec.Arpa K) (vocab : Nat) (uni : Word → Wt K) (full : Nat → List (Rec K)) : Prop where
  uniOk : ∀ w, (Spec.unigram a w).Same (uni w)
  orderOk : ∀ n, 2 ≤ n → n ≤ a.order → InOrder (full n)
  fullOk : ∀ n, 2 ≤ n → n ≤ a.order → ∀ r ∈ full n, (r.g, r.prob, r.bo) ∈ a.sect n ∧ (r.ext = false → r.bo = 0)
  allOk : ∀ n, 2 ≤ n → n ≤ a.order → ∀ x ∈ a.sect n, ∃ r ∈ full n, r.g = x.1

theorem Source.first {a : Spec.Arpa K} {f : Files K} (hf : Spec.SortedFiles a f) (vocab : Nat) : Source a vocab (Spec.unigram a) f.full := by
  refine ⟨fun w => ⟨rfl, rfl, id⟩, hf.order, fun n h1 h2 r hr => ?_, fun n h1 h2 x hx => ?_⟩
  · obtain ⟨x, hx, rfl⟩ := List.mem_map.1 ((hf.full n h1 h2).mem_iff.1 hr)
    exact ⟨hx, fun h => by simpa [Spec.record] using h⟩
  · exact ⟨Spec.record x, (hf.full n h1 h2).mem_iff.2 (List.mem_map.2 ⟨x, hx, rfl⟩), rfl⟩

omit [AddCommGroup K] [DecidableEq K] in
theorem same_mem {A B : List (Rec K)} (h : List.Forall₂ Rec.Same A B) : (∀ r' ∈ B, ∃ r ∈ A, r.Same r') ∧ (∀ r ∈ A, ∃ r' ∈ B, r.Same r') := by
  induction h with
  | nil => simp
  | cons ha _ ih =>
    refine ⟨fun r hr => ?_, fun r hr => ?_⟩
    · rcases List.mem_cons.1 hr with rfl | hr
      · exact ⟨_, by simp, ha⟩
      · obtain ⟨r', h1, h2⟩ := ih.1 r hr
        exact ⟨r', by simp [h1], h2⟩
    · rcases List.mem_cons.1 hr with rfl | hr
      · exact ⟨_, by simp, ha⟩
      · obtain ⟨r', h1, h2⟩ := ih.2 r hr
        exact ⟨r', by simp [h1], h2⟩

omit [AddCommGroup K] [DecidableEq K] in
theorem same_order {A B : List (Rec K)} (h : List.Forall₂ Rec.Same A B) : InOrder A → InOrder B := by
  induction h with
  | nil => simp
  | cons ha hb ih =>
    intro hs
    obtain ⟨h1, h2⟩ := List.pairwise_cons.1 hs
    refine List.pairwise_cons.2 ⟨fun x hx => ?_, ih h2⟩
    obtain ⟨y, hy, e⟩ := (same_mem hb).1 x hx
    rw [← ha.1, ← e.1]
    exact h1 y hy

theorem Source.same {a : Spec.Arpa K} {vocab : Nat} {uni uni' : Word → Wt K} {full full' : Nat → List (Rec K)} (h : Source a vocab uni full) (hu : ∀ w, (uni w).Same (uni' w))
    (hf : ∀ n, List.Forall₂ Rec.Same (full n) (full' n)) : Source a vocab uni' full' := by
  refine ⟨fun w => ?_, fun n h1 h2 => same_order (hf n) (h.orderOk n h1 h2), fun n h1 h2 r hr => ?_, fun n h1 h2 x hx => ?_⟩
  · have e1 := h.uniOk w
    have e2 := hu w
    exact ⟨e1.1.trans e2.1, e1.2.1.trans e2.2.1, fun h => e1.2.2 (e2.2.2 h)⟩
  · obtain ⟨r0, h3, h4⟩ := (same_mem (hf n)).1 r hr
    obtain ⟨h5, h6⟩ := h.fullOk n h1 h2 r0 h3
    rw [← h4.1, ← h4.2.1, ← h4.2.2.1]
    exact ⟨h5, fun h => h6 (h4.2.2.2 h)⟩
  · obtain ⟨r0, h3, h4⟩ := h.allOk n h1 h2 x hx
    obtain ⟨r, h5, h6⟩ := (same_mem (hf n)).2 r0 h3
    exact ⟨r, h5, h6.1.symm.trans h4⟩

/-- The calls for a source. -/
structure Calls (a : Spec.Arpa K) (vocab : Nat) (C : List (Call K)) : Prop where
  sorted : (C.map Call.gram).Pairwise (· < ·)
  closed : ∀ c ∈ C, ∀ n, 1 ≤ n → n < c.gram.length → c.gram.take n ∈ C.map Call.gram
  uni : ∀ w, Call.unigram w ∈ C ↔ w < vocab
  middle : ∀ r, Call.middle r ∈ C → 2 ≤ r.g.length ∧ r.g.length < a.order ∧ a.look r.g = some (r.prob, r.bo) ∧ (r.ext = false → r.bo = 0)
  longest : ∀ r, Call.longest r ∈ C → r.g.length = a.order ∧ a.prob r.g = some r.prob
  blank : ∀ g l q, Call.blank g l q ∈ C → 2 ≤ g.length ∧ g.length < a.order ∧ 1 ≤ l ∧ l < g.length ∧ a.prob (g.take l) = some q ∧ ∀ k, l < k → k ≤ g.length → a.prob (g.take k) = none
  listed : ∀ g, 2 ≤ g.length → g.length < a.order → a.look g ≠ none → ∃ r, Call.middle r ∈ C ∧ r.g = g
  long : ∀ g, g.length = a.order → a.look g ≠ none → ∃ r, Call.longest r ∈ C ∧ r.g = g
  below : ∀ c ∈ C, ∀ w ∈ c.gram, w < vocab

theorem Source.calls {a : Spec.Arpa K} (hr : a.Regular) {vocab : Nat} (hb : a.Below vocab) {uni : Word → Wt K} {full : Nat → List (Rec K)} (h : Source a vocab uni full) :
    ∃ C, recursiveInsert a.order vocab uni full = some C ∧ Calls a vocab C := by
  obtain ⟨R, C, h1, h2, h3, h4⟩ := recursiveInsert_spec (order := a.order) (vocab := vocab) uni hr.two (fun n hn1 hn2 => ⟨h.orderOk n hn1 hn2, fun r hr' => by
    have := (h.fullOk n hn1 hn2 r hr').1
    exact ⟨hr.length n hn1 hn2 _ this, hb n hn1 hn2 _ this⟩⟩)
  refine ⟨C, h1, ?_⟩
  have hnd : (R.map (·.g)).Nodup := by
    unfold List.Nodup
    rw [List.pairwise_map]
    exact h3.imp fun h => ne_of_lt h
  have hlook : ∀ r ∈ R, a.look r.g = some (r.prob, r.bo) ∧ (2 ≤ r.g.length → r.ext = false → r.bo = 0) ∧ (∀ w ∈ r.g, w < vocab) := by
    intro r hr'
    rcases (h4 r).1 hr' with ⟨w, hw, rfl⟩ | ⟨n, hn1, hn2, h5⟩
    · have e := h.uniOk w
      simp only [uniRec, Spec.Arpa.look, List.length_singleton, List.mem_singleton, forall_eq]
      refine ⟨?_, by omega, hw⟩
      rw [← e.1, ← e.2.1]
      rfl
    · obtain ⟨h6, h7⟩ := h.fullOk n hn1 hn2 r h5
      have hl := hr.length n hn1 hn2 _ h6
      simp only at hl
      refine ⟨(look_mem hr (by omega)).2 ⟨by omega, by rw [hl]; exact h6⟩, fun _ => h7, hb n hn1 hn2 _ h6⟩
  have hmem : ∀ g, 2 ≤ g.length → a.look g ≠ none → ∃ r ∈ R, r.g = g := by
    intro g hg hl
    obtain ⟨y, hy⟩ := Option.ne_none_iff_exists'.1 hl
    obtain ⟨h5, h6⟩ := (look_mem hr hg).1 hy
    obtain ⟨r, h7, h8⟩ := h.allOk _ hg h5 _ h6
    exact ⟨r, (h4 r).2 (.inr ⟨_, hg, h5, h7⟩), h8⟩
  have hprob : ∀ g, (∀ w ∈ g, w < vocab) → probIn R g = a.prob g := by
    intro g hg
    cases hp : probIn R g with
    | some q =>
      obtain ⟨r, hr', rfl, rfl⟩ := probIn_some hp
      rw [Spec.Arpa.prob, (hlook r hr').1]
      rfl
    | none =>
      rw [probIn_none] at hp
      symm
      rw [Spec.Arpa.prob, Option.map_eq_none_iff]
      match g with
      | [] => rfl
      | [w] => exact absurd rfl (hp _ ((h4 (uniRec uni w)).2 (.inl ⟨w, hg w (by simp), rfl⟩)))
      | x :: y :: t =>
        by_contra hne
        obtain ⟨r, hr', e⟩ := hmem (x :: y :: t) (by simp) hne
        exact hp r hr' e
  have hlt : ∀ c ∈ C, c.gram ≠ [] := by
    intro c hc e
    have := (List.pairwise_cons.1 h2.sorted).1 _ (List.mem_map.2 ⟨c, hc, rfl⟩)
    rw [e] at this
    exact lt_irrefl _ this
  have hclosed : ∀ c ∈ C, ∀ n, 1 ≤ n → n < c.gram.length → c.gram.take n ∈ C.map Call.gram := by
    intro c hc n hn1 hn2
    rcases h2.closed c hc n hn1 hn2 with h | h
    · have := List.prefix_nil.1 h
      have hl := congrArg List.length this
      rw [List.length_take, List.length_nil] at hl
      omega
    · exact h
  have hbelow : ∀ c ∈ C, ∀ w ∈ c.gram, w < vocab := by
    intro c hc w hw
    obtain ⟨r, hr', hp⟩ := h2.pre c hc
    exact (hlook r hr').2.2 w (hp.subset hw)
  refine ⟨(List.pairwise_cons.1 h2.sorted).2, hclosed, fun w => ⟨fun hw => hbelow _ hw w (by simp [Call.gram]), fun hw => ?_⟩, fun r hr' => ?_, fun r hr' => ?_, fun g l q hg => ?_, fun g hg1 hg2 hl => ?_, fun g hg hl => ?_, hbelow⟩
  · have := h2.all _ ((h4 (uniRec uni w)).2 (.inl ⟨w, hw, rfl⟩))
    simpa [callOf, uniRec] using this
  · obtain ⟨h5, h6, h7⟩ := h2.good _ hr'
    obtain ⟨h8, h9, _⟩ := hlook r h5
    exact ⟨h6, h7, h8, h9 h6⟩
  · obtain ⟨h5, h6⟩ := h2.good _ hr'
    refine ⟨h6, ?_⟩
    rw [Spec.Arpa.prob, (hlook r h5).1]
    rfl
  · obtain ⟨h5, h6, h7, h8, h9, h10⟩ := h2.good _ hg
    have hw : ∀ k, ∀ w ∈ g.take k, w < vocab := fun k w hw => hbelow _ hg w (List.mem_of_mem_take hw)
    refine ⟨h5, h6, h7, h8, ?_, fun k hk1 hk2 => ?_⟩
    · rw [← hprob _ (hw l)]; exact h9
    · rw [← hprob _ (hw k)]; exact h10 k hk1 hk2
  · obtain ⟨r, hr', rfl⟩ := hmem g hg1 hl
    have := h2.all r hr'
    rw [callOf, if_neg (by omega), if_neg (by omega)] at this
    exact ⟨r, this, rfl⟩
  · have := hr.two
    obtain ⟨r, hr', rfl⟩ := hmem g (by omega) hl
    have := h2.all r hr'
    rw [callOf, if_neg (by omega), if_pos hg] at this
    exact ⟨r, this, rfl⟩

end Cdec.Klm.LM
