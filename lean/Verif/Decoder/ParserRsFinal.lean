import Verif.Decoder.ParserRsItems
/-! The finished chart of the other parser. -/
namespace Cdec.Dec.Parser.Rs
open Cdec.HG Spec
variable {ι R φ : Type} [Add φ] [Zero φ] {p : Env ι R φ} {u : List R} {ρ : Int → Nat}

/-- All items of a row. -/
def acts (p : Env ι R φ) (q : Passive R φ) (gi i m : Nat) : List (Item ι φ) :=
  match p.grams[gi]? with
  | none => []
  | some G => ((exts p q G (p.n + 1) i (root G)).filter fun y => decide (y.1 = m)).map Prod.snd

omit [Add φ] [Zero φ] in
theorem mem_tag {l : List (Nat × Item ι φ)} {m : Nat} {it : Item ι φ} : it ∈ (l.filter fun y => decide (y.1 = m)).map Prod.snd ↔ (m, it) ∈ l := by
  rw [List.mem_map]
  constructor
  · rintro ⟨⟨a, b⟩, h, rfl⟩
    have := List.mem_filter.1 h
    rw [← of_decide_eq_true this.2]
    exact this.1
  · intro h
    exact ⟨(m, it), List.mem_filter.2 ⟨h, by simp⟩, rfl⟩

theorem mem_acts {q : Passive R φ} {gi : Nat} {G : Gram ι R} (hG : p.grams[gi]? = some G) {i m : Nat} {it : Item ι φ} :
    it ∈ acts p q gi i m ↔ (m, it) ∈ exts p q G (p.n + 1) i (root G) := by
  unfold acts
  rw [hG]
  exact mem_tag

omit [Zero φ] in
/-- Items are made step by step. -/
theorem exts_iff {q : Passive R φ} {G : Gram ι R} (f : Nat) : ∀ (j : Nat) (it : Item ι φ), p.n - j < f → ∀ x, x ∈ exts p q G f j it ↔ x = (j, it) ∨ ∃ y ∈ exts p q G f j it, x ∈ next p q G y.1 y.2 := by
  induction f with
  | zero => intro j it h; omega
  | succ f ih =>
    intro j it hf x
    have hch : ∀ z ∈ next p q G j it, p.n - z.1 < f := fun z hz => by
      have := mem_next hz
      omega
    have hhead : ∀ z ∈ next p q G j it, z ∈ exts p q G f z.1 z.2 := fun z hz => (ih z.1 z.2 (hch z hz) z).2 (.inl rfl)
    rw [exts]
    constructor
    · intro h
      rcases List.mem_cons.1 h with h | h
      · exact .inl h
      · right
        obtain ⟨z, hz, h⟩ := List.mem_flatMap.1 h
        rcases (ih z.1 z.2 (hch z hz) x).1 h with rfl | ⟨y, hy, hx⟩
        · exact ⟨(j, it), List.mem_cons_self, hz⟩
        · exact ⟨y, List.mem_cons_of_mem _ (List.mem_flatMap.2 ⟨z, hz, hy⟩), hx⟩
    · rintro (rfl | ⟨y, hy, hx⟩)
      · exact List.mem_cons_self
      · apply List.mem_cons_of_mem
        rcases List.mem_cons.1 hy with rfl | hy
        · exact List.mem_flatMap.2 ⟨x, hx, hhead x hx⟩
        · obtain ⟨z, hz, hy⟩ := List.mem_flatMap.1 hy
          exact List.mem_flatMap.2 ⟨z, hz, (ih z.1 z.2 (hch z hz) x).2 (.inr ⟨y, hy, hx⟩)⟩

omit [Zero φ] in
theorem exts_placed {q : Passive R φ} {G : Gram ι R} (f : Nat) : ∀ (j : Nat) (it : Item ι φ), Placed G it.g → ∀ x ∈ exts p q G f j it, Placed G x.2.g := by
  induction f with
  | zero => intro j it _ x h; simp [exts] at h
  | succ f ih =>
    intro j it hp x h
    rw [exts] at h
    rcases List.mem_cons.1 h with rfl | h
    · exact hp
    · obtain ⟨z, hz, h⟩ := List.mem_flatMap.1 h
      refine ih z.1 z.2 ?_ x h
      rcases (mem_next hz).2.2 with h1 | h1
      · obtain ⟨idx, a, _, _, e⟩ := mem_nextT.1 h1
        obtain ⟨g, hg, e⟩ := extTerm_some e
        rw [e]
        split at hg
        · rw [← Option.some.inj hg]
          exact hp
        · exact hp.extend hg
      · obtain ⟨v, hv, g, hg, e⟩ := mem_nextN.1 h1
        rw [e]
        exact hp.extend hg

omit [Zero φ] in
theorem exts_le {q : Passive R φ} {G : Gram ι R} (f : Nat) : ∀ (j : Nat) (it : Item ι φ), j ≤ p.n → ∀ x ∈ exts p q G f j it, x.1 ≤ p.n := by
  induction f with
  | zero => intro j it _ x h; simp [exts] at h
  | succ f ih =>
    intro j it hj x h
    rw [exts] at h
    rcases List.mem_cons.1 h with rfl | h
    · exact hj
    · obtain ⟨z, hz, h⟩ := List.mem_flatMap.1 h
      exact ih z.1 z.2 (mem_next hz).2.1 x h

/-! Different items have different steps. -/

omit [Zero φ] in
theorem exts_prefix {q : Passive R φ} {G : Gram ι R} (f : Nat) : ∀ (j : Nat) (it : Item ι φ), ∀ x ∈ exts p q G f j it, it.steps <+: x.2.steps := by
  induction f with
  | zero => intro j it x h; simp [exts] at h
  | succ f ih =>
    intro j it x h
    rw [exts] at h
    rcases List.mem_cons.1 h with rfl | h
    · exact List.prefix_refl _
    · obtain ⟨z, hz, h⟩ := List.mem_flatMap.1 h
      refine List.IsPrefix.trans ?_ (ih z.1 z.2 x h)
      rcases (mem_next hz).2.2 with h1 | h1
      · obtain ⟨idx, a, _, _, e⟩ := mem_nextT.1 h1
        obtain ⟨g, hg, e⟩ := extTerm_some e
        rw [e]
        exact List.prefix_append _ _
      · obtain ⟨v, hv, g, hg, e⟩ := mem_nextN.1 h1
        rw [e]
        exact List.prefix_append _ _

omit [Zero φ] in
theorem next_steps {q : Passive R φ} {G : Gram ι R} {j : Nat} {it : Item ι φ} : ∀ z ∈ next p q G j it, ∃ st, z.2.steps = it.steps ++ [st] := by
  intro z hz
  rcases (mem_next hz).2.2 with h1 | h1
  · obtain ⟨idx, a, _, _, e⟩ := mem_nextT.1 h1
    obtain ⟨g, hg, e⟩ := extTerm_some e
    exact ⟨_, by rw [e]⟩
  · obtain ⟨v, hv, g, hg, e⟩ := mem_nextN.1 h1
    exact ⟨_, by rw [e]⟩

theorem nodup_filterMap {α β γ : Type} {f : α → Option β} {g : β → γ} {l : List α} (hl : l.Nodup) (h : ∀ a ∈ l, ∀ b ∈ l, ∀ x y, f a = some x → f b = some y → g x = g y → a = b) :
    ((l.filterMap f).map g).Nodup := by
  induction l with
  | nil => simp
  | cons a l ih =>
    have hl' := List.nodup_cons.1 hl
    have := ih hl'.2 fun x hx y hy => h x (by simp [hx]) y (by simp [hy])
    rw [List.filterMap_cons]
    cases ha : f a with
    | none => simpa using this
    | some x =>
      simp only [List.map_cons, List.nodup_cons]
      refine ⟨?_, this⟩
      intro hm
      obtain ⟨y, hy, e⟩ := List.mem_map.1 hm
      obtain ⟨b, hb, hfb⟩ := List.mem_filterMap.1 hy
      have := h a (by simp) b (by simp [hb]) x y ha hfb e.symm
      subst this
      exact hl'.1 hb

omit [Zero φ] in
theorem next_nodup {q : Passive R φ} (hq : PInv p q) {G : Gram ι R} {j : Nat} {it : Item ι φ} : ((next p q G j it).map fun z => z.2.steps).Nodup := by
  unfold next
  have hT : ∀ k, ∀ y ∈ nextT p G j k it, ∃ idx a, (p.lat.getD j [])[idx]? = some a ∧ a.len = k - j ∧ y.steps = it.steps ++ [.arc j idx] := by
    intro k y hy
    obtain ⟨idx, a, h1, h2, e⟩ := mem_nextT.1 hy
    obtain ⟨g, hg, e⟩ := extTerm_some e
    exact ⟨idx, a, h1, h2, by rw [e]⟩
  have hN : ∀ k, ∀ y ∈ nextN q G j k it, ∃ v ∈ q.chart j k, y.steps = it.steps ++ [.node v] := by
    intro k y hy
    obtain ⟨v, hv, g, hg, e⟩ := mem_nextN.1 hy
    exact ⟨v, hv, by rw [e]⟩
  refine nodup_map_flatMap ?_ ?_
  · intro k hk
    rw [List.map_map]
    have e : ((fun z : Nat × Item ι φ => z.2.steps) ∘ fun y => (k, y)) = Item.steps := rfl
    rw [e, List.map_append]
    refine List.Nodup.append ?_ ?_ ?_
    · unfold nextT
      have hnd : ((p.lat.getD j []).zipIdx.map Prod.snd).Nodup := by
        rw [List.zipIdx_map_snd]
        exact List.nodup_range'
      refine nodup_filterMap hnd.of_map ?_
      rintro ⟨a, idx⟩ ha ⟨b, idx'⟩ hb x y hx hy hxy
      simp only [] at hx hy
      split at hx
      · split at hy
        · obtain ⟨_, _, e1⟩ := extTerm_some hx
          obtain ⟨_, _, e2⟩ := extTerm_some hy
          rw [e1, e2] at hxy
          have := List.append_inj_right' hxy rfl
          simp at this
          exact List.inj_on_of_nodup_map hnd ha hb this
        · simp at hy
      · simp at hx
    · unfold nextN
      refine nodup_filterMap (hq.nodup j k) ?_
      intro v hv w hw x y hx hy hxy
      unfold extNode at hx hy
      obtain ⟨_, _, e1⟩ := Option.map_eq_some_iff.1 hx
      obtain ⟨_, _, e2⟩ := Option.map_eq_some_iff.1 hy
      rw [← e1, ← e2] at hxy
      have := List.append_inj_right' hxy rfl
      simpa using this
    · intro z hz1 hz2
      obtain ⟨x, hx, rfl⟩ := List.mem_map.1 hz1
      obtain ⟨y, hy, e⟩ := List.mem_map.1 hz2
      obtain ⟨idx, a, _, _, e1⟩ := hT k x hx
      obtain ⟨v, _, e2⟩ := hN k y hy
      rw [e1, e2] at e
      have := List.append_inj_right' e rfl
      simp at this
  · have hnd : (List.range' (j + 1) (p.n - j)).Pairwise fun a b => a < b := List.pairwise_lt_range'
    rw [List.pairwise_iff_forall_sublist] at hnd ⊢
    intro k k' hsub x hx y hy hxy
    have hlt := hnd hsub
    have hk := List.mem_range'_1.1 (hsub.subset (show k ∈ _ by simp))
    obtain ⟨x, hx', rfl⟩ := List.mem_map.1 hx
    obtain ⟨y, hy', rfl⟩ := List.mem_map.1 hy
    simp only [] at hxy
    clear hx hy
    rename' hx' => hx, hy' => hy
    rcases List.mem_append.1 hx with hx | hx
    · obtain ⟨idx, a, a1, a2, e1⟩ := hT k x hx
      rcases List.mem_append.1 hy with hy | hy
      · obtain ⟨idx', a', b1, b2, e2⟩ := hT k' y hy
        rw [e1, e2] at hxy
        have := List.append_inj_right' hxy rfl
        simp at this
        subst this
        rw [a1] at b1
        have := Option.some.inj b1
        subst this
        omega
      · obtain ⟨v, _, e2⟩ := hN k' y hy
        rw [e1, e2] at hxy
        have := List.append_inj_right' hxy rfl
        simp at this
    · obtain ⟨v, hv, e1⟩ := hN k x hx
      rcases List.mem_append.1 hy with hy | hy
      · obtain ⟨idx', a', b1, b2, e2⟩ := hT k' y hy
        rw [e1, e2] at hxy
        have := List.append_inj_right' hxy rfl
        simp at this
      · obtain ⟨w, hw, e2⟩ := hN k' y hy
        rw [e1, e2] at hxy
        have := List.append_inj_right' hxy rfl
        simp at this
        subst this
        have := hq.disj hv hw
        omega

omit [Zero φ] in
theorem exts_nodup {q : Passive R φ} (hq : PInv p q) {G : Gram ι R} (f : Nat) : ∀ (j : Nat) (it : Item ι φ), ((exts p q G f j it).map fun z => z.2.steps).Nodup := by
  induction f with
  | zero => intro j it; simp [exts]
  | succ f ih =>
    intro j it
    rw [exts, List.map_cons, List.nodup_cons]
    constructor
    · intro h
      obtain ⟨x, hx, e⟩ := List.mem_map.1 h
      obtain ⟨z, hz, hx⟩ := List.mem_flatMap.1 hx
      obtain ⟨st, hst⟩ := next_steps z hz
      have := (exts_prefix f z.1 z.2 x hx).length_le
      rw [e, hst, List.length_append] at this
      simp only [List.length_singleton] at this
      omega
    · refine nodup_map_flatMap (fun z _ => ih z.1 z.2) ?_
      have := List.pairwise_map.1 (next_nodup hq (G := G) (j := j) (it := it))
      rw [List.pairwise_iff_forall_sublist] at this ⊢
      intro z z' hsub x hx y hy hxy
      apply this hsub
      obtain ⟨st, hst⟩ := next_steps z (hsub.subset (by simp))
      obtain ⟨st', hst'⟩ := next_steps z' (hsub.subset (by simp))
      have h1 := exts_prefix f _ _ x hx
      have h2 := exts_prefix f _ _ y hy
      rw [← hxy] at h2
      have := List.prefix_of_prefix_length_le h1 h2 (by rw [hst, hst']; simp)
      exact this.eq_of_length (by rw [hst, hst']; simp)

/-! The order of the jobs. -/

theorem perm_flatMap_swap {α β γ : Type} (l : List α) (m : List β) (f : α → β → List γ) : List.Perm (l.flatMap fun a => m.flatMap fun b => f a b) (m.flatMap fun b => l.flatMap fun a => f a b) := by
  induction l with
  | nil => simp
  | cons a l ih =>
    simp only [List.flatMap_cons]
    refine (ih.append_left _).trans ?_
    exact List.flatMap_append_perm m (fun b => f a b) fun b => l.flatMap fun a => f a b

theorem row_perm {q : Passive R φ} (i : Nat) :
    List.Perm ((List.range' (i + 1) (p.n - i)).flatMap fun j => cellBs p q q i j)
      (p.grams.flatMap fun G => tagJobs G ((next p q G i (root G)).flatMap fun y => exts p q G p.n y.1 y.2)) := by
  have h1 : List.Perm ((List.range' (i + 1) (p.n - i)).flatMap fun j => cellBs p q q i j)
      ((List.range' (i + 1) (p.n - i)).flatMap fun j => p.grams.flatMap fun G => ((nextT p G i j (root G)).flatMap fun y => tagJobs G (exts p q G p.n j y)) ++
        (nextN q G i j (root G)).flatMap fun y => tagJobs G (exts p q G p.n j y)) := by
    refine List.Perm.flatMap_left _ ?_
    intro j _
    exact List.flatMap_append_perm _ _ _
  refine h1.trans ((perm_flatMap_swap _ _ _).trans (List.Perm.of_eq ?_))
  congr 1
  funext G
  rw [tagJobs_flatMap]
  unfold next
  rw [List.flatMap_assoc]
  congr 1
  funext j
  rw [List.flatMap_map, List.flatMap_append]

/-- Jobs of a cell from jobs of a row. -/
theorem jobsAt_tag (G : Gram ι R) (b : Nat) (l : List (Nat × Item ι φ)) : jobsAt b (tagJobs G l) = ((l.filter fun y => decide (y.1 = b)).map Prod.snd).flatMap (itemJobs G) := by
  induction l with
  | nil => rfl
  | cons y l ih =>
    have : tagJobs G (y :: l) = (itemJobs G y.2).map (fun x => (y.1, x)) ++ tagJobs G l := by simp [tagJobs]
    rw [this, jobsAt_append, ih, List.filter_cons]
    by_cases h : y.1 = b
    · subst h
      rw [jobsAt_same]
      simp
    · rw [jobsAt_nil (by
        intro x hx
        obtain ⟨z, _, rfl⟩ := List.mem_map.1 hx
        exact h)]
      simp [h]

theorem jobsAt_flatMap {α : Type} (b : Nat) (l : List α) (f : α → List (Nat × Job R φ)) : jobsAt b (l.flatMap f) = l.flatMap fun x => jobsAt b (f x) := by
  induction l with
  | nil => rfl
  | cons a l ih => rw [List.flatMap_cons, List.flatMap_cons, jobsAt_append, ih]

theorem jobsAt_perm {b : Nat} {l l' : List (Nat × Job R φ)} (h : List.Perm l l') : List.Perm (jobsAt b l) (jobsAt b l') := (h.filter _).map _

/-- The jobs of a cell. -/
theorem jobs_row (hh : ∀ G ∈ p.grams, ∀ i j, G.has i j = true) {q : Passive R φ} {i b : Nat} (hb : i < b) :
    List.Perm (jobsAt b ((List.range' (i + 1) (p.n - i)).flatMap fun j => cellBs p q q i j)) (p.grams.zipIdx.flatMap (gramJobs (acts p q) i b)) := by
  refine (jobsAt_perm (row_perm i)).trans (List.Perm.of_eq ?_)
  rw [jobsAt_flatMap]
  have e : p.grams = p.grams.zipIdx.map Prod.fst := by rw [List.zipIdx_map_fst]
  conv => lhs; rw [e]
  rw [List.flatMap_map, List.flatMap_def, List.flatMap_def]
  congr 1
  apply List.map_congr_left
  rintro ⟨G, gi⟩ hx
  have hG : p.grams[gi]? = some G := List.mk_mem_zipIdx_iff_getElem?.1 hx
  unfold gramJobs
  rw [if_pos (hh G (List.mem_of_getElem? hG) i b)]
  simp only []
  rw [jobsAt_tag]
  unfold acts
  rw [hG]
  simp only []
  rw [exts, List.filter_cons, if_neg (by simp; omega)]

/-- What holds before row `i`, when all later rows are done. -/
structure RInv (p : Env ι R φ) (u : List R) (i : Nat) (q : Passive R φ) : Prop where
  pinv : PInv p q
  goalNone : q.goalIdx = none
  done : ∀ a b, i ≤ a → a < b → b ≤ p.n → ∀ c, List.Perm (q.at a b c) (appsOf p a b c (cellJobs p u q (acts p q) a b))
  empty : ∀ a b, ¬ (i ≤ a ∧ a < b ∧ b ≤ p.n) → q.chart a b = [] ∧ ∀ c, q.nodemap a b c = none

theorem cellJobs_congr {q q' : Passive R φ} {a b : Nat} (h1 : ∀ x y, a ≤ x → q'.chart x y = q.chart x y) (h2 : ∀ x y, a ≤ x → ∀ v ∈ q.chart x y, q'.cat v = q.cat v) :
    cellJobs p u q' (acts p q') a b = cellJobs p u q (acts p q) a b := by
  unfold cellJobs
  congr 1
  · rw [List.flatMap_def, List.flatMap_def]
    congr 1
    apply List.map_congr_left
    rintro ⟨G, gi⟩ hx
    apply gramJobs_congr
    congr 1
    unfold acts
    cases p.grams[gi]? with
    | none => rfl
    | some G' => simp only []; rw [exts_congr _ a _ h1 h2]
  · rw [h1 a b (Nat.le_refl _)]
    exact flatMap_unJobs_congr fun v hv => h2 a b (Nat.le_refl _) v hv

theorem rinv_row (hs : Set p u ρ) (hh : ∀ G ∈ p.grams, ∀ i j, G.has i j = true) {i : Nat} (hi : i < p.n) {q : Passive R φ} (h : RInv p u (i + 1) q) :
    ∃ q', parseRow p u q i = some q' ∧ RInv p u i q' := by
  obtain ⟨q', e, r⟩ := row_spec hs h.pinv (i := i) (p.n - i) (by omega)
  refine ⟨q', e, r.inv, r.goalIdx.trans h.goalNone, ?_, ?_⟩
  · intro a b ha hab hb c
    by_cases hai : a = i
    · subst hai
      obtain ⟨N, hN, hp⟩ := r.here b
      have he := h.empty a b (by omega)
      have h0 : q.at a b c = [] := by
        unfold Passive.at
        rw [he.2 c]
      rw [he.1, List.nil_append] at hN
      subst hN
      refine (hp c).trans ?_
      rw [h0, List.nil_append]
      apply appsOf_perm
      unfold cellJobs
      refine List.Perm.append_right _ ?_
      refine List.Perm.trans (List.Perm.of_eq ?_) (jobs_row hh hab)
      congr 1
      rw [List.flatMap_def, List.flatMap_def]
      congr 1
      apply List.map_congr_left
      intro j hj
      have hj' := List.mem_range'_1.1 hj
      unfold cellBs
      have hx : ∀ (G : Gram ι R) (y : Item ι φ), exts p q' G p.n j y = exts p q G p.n j y := fun G y =>
        exts_congr _ j y (fun x z hxz => r.chart x z (by omega)) (fun x z _ v hv => r.cat v (h.pinv.lt x z v hv))
      simp only [hx]
    · rw [r.other a b c hai, cellJobs_congr (q := q) (fun x y hx => r.chart x y (by omega)) (fun x y _ v hv => r.cat v (h.pinv.lt x y v hv))]
      exact h.done a b (by omega) hab hb c
  · intro a b hn
    by_cases hai : a = i
    · subst hai
      have hq := r.quiet b (by
        intro x hx
        obtain ⟨j, hj, hx⟩ := List.mem_flatMap.1 hx
        have hj' := List.mem_range'_1.1 hj
        have : ∃ (G : Gram ι R) (y : Item ι φ), x ∈ tagJobs G (exts p q G p.n j y) := by
          unfold cellBs at hx
          rcases List.mem_append.1 hx with hx | hx <;>
          · obtain ⟨G, _, hx⟩ := List.mem_flatMap.1 hx
            obtain ⟨y, _, hx⟩ := List.mem_flatMap.1 hx
            exact ⟨G, y, hx⟩
        obtain ⟨G, y, hx⟩ := this
        obtain ⟨z, hz, ex, _⟩ := mem_tagJobs hx
        have hle := exts_le p.n j y (by omega) z hz
        rcases mem_exts _ hz with rfl | h'
        · omega
        · omega)
      have he := h.empty a b (by omega)
      exact ⟨hq.1.trans he.1, fun c => (hq.2 c).trans (he.2 c)⟩
    · have he := h.empty a b (by omega)
      exact ⟨(r.chart a b hai).trans he.1, fun c => (r.map a b c hai).trans (he.2 c)⟩

theorem rinv_rows (hs : Set p u ρ) (hh : ∀ G ∈ p.grams, ∀ i j, G.has i j = true) (i : Nat) (hi : i ≤ p.n) {q : Passive R φ} (h : RInv p u i q) :
    ∃ q', (List.range i).reverse.foldlM (parseRow p u) q = some q' ∧ RInv p u 0 q' := by
  induction i generalizing q with
  | zero => exact ⟨q, rfl, h⟩
  | succ i ih =>
    obtain ⟨q1, e1, h1⟩ := rinv_row hs hh (by omega) h
    obtain ⟨q2, e2, h2⟩ := ih (by omega) h1
    refine ⟨q2, ?_, h2⟩
    rw [List.range_succ, List.reverse_append, List.reverse_singleton, List.singleton_append, List.foldlM_cons, e1]
    exact e2

theorem rinv_start (p : Env ι R φ) (u : List R) : RInv p u p.n ⟨empty, fun _ _ => [], fun _ _ _ => none, none⟩ := by
  have h := sinv_start p u
  refine ⟨h.pinv, rfl, fun a b h1 h2 h3 => by omega, fun _ _ _ => ⟨rfl, fun _ => rfl⟩⟩

theorem rinv_final (hok : Ok p) (hh : ∀ G ∈ p.grams, ∀ i j, G.has i j = true) {q : Passive R φ} (h : RInv p u 0 q) : FInv p u ⟨q, acts p q⟩ where
  pinv := h.pinv
  goalNone := h.goalNone
  placed gi G hG a m it hit := exts_placed (p.n + 1) a (root G) ⟨[], rfl⟩ _ ((mem_acts hG).1 hit)
  items gi G hG i hi m it := by
    have hG' := List.mem_of_getElem? hG
    have hge : ∀ k y, (k, y) ∈ exts p q G (p.n + 1) i (root G) → i ≤ k := fun k y hy => by
      rcases mem_exts _ hy with e | h
      · rw [(Prod.mk.inj e).1]
      · exact Nat.le_of_lt h
    simp only []
    rw [mem_acts hG, exts_iff (p.n + 1) i (root G) (by omega)]
    apply or_congr
    · simp only [Prod.mk.injEq, hh G hG' i i, true_and]
      rfl
    · constructor
      · rintro ⟨⟨k, y⟩, hy, hx⟩
        have hn := mem_next hx
        have hik := hge k y hy
        simp only [] at hn
        rcases hn.2.2 with h1 | h1
        · obtain ⟨idx, a, a1, a2, e⟩ := mem_nextT.1 h1
          obtain ⟨g, hg, e⟩ := extTerm_some e
          exact ⟨k, hik, by omega, hh G hG' _ _, .inr (mem_arcExts.2 ⟨idx, a, a1, by omega, y, (mem_acts hG).2 hy, g, hg, e⟩)⟩
        · obtain ⟨v, hv, g, hg, e⟩ := mem_nextN.1 h1
          refine ⟨m - 1, by omega, by omega, hh G hG' _ _, .inl ⟨by omega, k, hik, hn.1, mem_nodeExts.2 ⟨y, (mem_acts hG).2 hy, v, hv, g, hg, e⟩⟩⟩
      · rintro ⟨k, hk1, hk2, _, ⟨rfl, k', h1, h2, hx⟩ | hx⟩
        · obtain ⟨y, hy, v, hv, g, hg, e⟩ := mem_nodeExts.1 hx
          refine ⟨(k', y), (mem_acts hG).1 hy, List.mem_flatMap.2 ⟨k + 1, List.mem_range'_1.2 ?_, List.mem_map.2 ⟨it, List.mem_append_right _ (mem_nextN.2 ⟨v, hv, g, hg, e⟩), rfl⟩⟩⟩
          simp only []
          omega
        · obtain ⟨idx, a, a1, rfl, y, hy, g, hg, e⟩ := mem_arcExts.1 hx
          have hlen := hok.arcs k a (List.mem_of_getElem? a1)
          refine ⟨(k, y), (mem_acts hG).1 hy, List.mem_flatMap.2 ⟨k + a.len, List.mem_range'_1.2 ?_, List.mem_map.2 ⟨it, List.mem_append_left _ (mem_nextT.2
            ⟨idx, a, a1, by omega, ?_⟩), rfl⟩⟩⟩
          · simp only []
            omega
          · unfold extTerm
            simp only []
            split
            · rename_i he
              rw [if_pos he] at hg
              rw [e, ← Option.some.inj hg]
            · rename_i he
              rw [if_neg he] at hg
              rw [hg, e]
              rfl
  nodup gi G hG i hi m := by
    have := exts_nodup h.pinv (G := G) (p.n + 1) i (root G)
    show ((acts p q gi i m).map Item.steps).Nodup
    unfold acts
    rw [hG]
    simp only []
    rw [List.map_map]
    exact this.sublist (List.filter_sublist.map _)
  done a b h1 h2 c := h.done a b (by omega) h1 h2 c
  empty a b hn := h.empty a b (by omega)

/-- The whole of `Parse`. -/
theorem parse_ready (p : Env ι R φ) (hok : Ok p) (hh : ∀ G ∈ p.grams, ∀ i j, G.has i j = true) (hs : sortUnaries p = some u) :
    ∃ b g F, (∀ fuel, F ≤ fuel → parse p fuel = some (b, g)) ∧ (b = true ↔ ∃ t, Parse p u p.goalCat 0 p.n t) ∧
      (b = true → WF g ∧ 0 < g.nodes.length ∧ (∀ t, (∃ T, IsDeriv g g.goal T ∧ Shows g T t) ↔ ∃ t0, Parse p u p.goalCat 0 p.n t0 ∧ t = goalTree p t0) ∧
        (Distinct p → ∀ T T' t, IsDeriv g g.goal T → IsDeriv g g.goal T' → Shows g T t → Shows g T' t → T = T') ∧ Dec.Spec.Ready g) := by
  obtain ⟨u', hu', ⟨ρ, hρ⟩, hsub, _⟩ := sortUnaries_spec p
  rw [hs] at hu'
  have := Option.some.inj hu'
  subst this
  have hmem : ∀ r ∈ u, r ∈ p.unaries := fun r hr => List.mem_of_mem_filter (hsub.subset hr)
  obtain ⟨q, e, h⟩ := rinv_rows (ρ := ρ) ⟨hok, fun r hr => hok.unaries_ne r (hmem r hr), hρ⟩ hh p.n (Nat.le_refl _) (rinv_start p u)
  obtain ⟨q1, b, g, F, hq, hf, hrest⟩ := finish_ready p hok hs (rinv_final hok hh h)
  refine ⟨b, g, F, fun fuel hF => ?_, hrest⟩
  unfold parse
  rw [hs]
  simp only []
  rw [e]
  simp only []
  simp only [] at hq
  rw [hq]
  exact hf fuel hF

end Cdec.Dec.Parser.Rs
