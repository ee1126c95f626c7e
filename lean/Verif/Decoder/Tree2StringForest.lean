import Verif.Decoder.Tree2StringLoop
import Mathlib.Data.List.ProdSigma
import Mathlib.Data.List.Perm.Subperm
/-! The forest of the tree-to-string translator. -/
namespace Cdec.Dec.T2S
open Cdec.HG Spec
variable {R : Type}

/-- The edges of the node of `n`: one for each rule of each state that has finished there. -/
def edgesAt (E : Env R) (tags : List Nat) (P : List PState) (n : Nat) : List (List Nat × Val R) :=
  P.flatMap fun s => if s.task = n ∧ s.it.q = [] then ((E.gram s.g).data s.path).map fun r =>
    (s.future.map tags.idxOf, Val.rule r (E.tf.at s.task).span.1 (E.tf.at s.task).span.2) else []

/-- What is true of the forest: `tags` are the tasks of its nodes. -/
structure FInv (E : Env R) (P : List PState) (tags : List Nat) (m : Vars R) : Prop where
  nodup : tags.Nodup
  x2hg : ∀ n, m.x2hg n = if n ∈ tags then some (tags.idxOf n) else none
  spec : ∃ spec, Shape m.forest spec ∧ spec.length = tags.length ∧ ∀ n ∈ tags, spec.getD (tags.idxOf n) [] = edgesAt E tags P n
  mem : ∀ s ∈ P, Complete E s → s.task ∈ tags ∧ ∀ n ∈ s.future, n ∈ tags

theorem edgesAt_none {E : Env R} {P : List PState} {tags : List Nat} {n : Nat} (hm : ∀ s ∈ P, Complete E s → s.task ∈ tags ∧ ∀ n ∈ s.future, n ∈ tags)
    (hn : n ∉ tags) (tags' : List Nat) : edgesAt E tags' P n = [] := by
  unfold edgesAt
  rw [List.flatMap_eq_nil_iff]
  intro s hs
  split
  · rename_i h
    rw [List.map_eq_nil_iff]
    apply Decidable.byContradiction
    intro hd
    exact hn (h.1 ▸ (hm s hs ⟨h.2, hd⟩).1)
  · rfl

theorem edgesAt_ext {E : Env R} {P : List PState} {tags : List Nat} (hm : ∀ s ∈ P, Complete E s → s.task ∈ tags ∧ ∀ n ∈ s.future, n ∈ tags) (e : List Nat) (n : Nat) :
    edgesAt E (tags ++ e) P n = edgesAt E tags P n := by
  unfold edgesAt
  apply List.flatMap_congr
  intro s hs
  split
  · rename_i h
    by_cases hd : (E.gram s.g).data s.path = []
    · simp [hd]
    · have : s.future.map (tags ++ e).idxOf = s.future.map tags.idxOf := by
        apply List.map_congr_left
        intro k hk
        exact List.idxOf_append_of_mem ((hm s hs ⟨h.2, hd⟩).2 k hk)
      rw [this]
  · rfl

theorem FInv.nodeFor {E : Env R} {P : List PState} {tags : List Nat} {m : Vars R} (h : FInv E P tags m) (n : Nat) :
    ∃ e, FInv E P (tags ++ e) (nodeFor E n m) ∧ n ∈ tags ++ e := by
  unfold T2S.nodeFor
  rw [h.x2hg n]
  by_cases hn : n ∈ tags
  · rw [if_pos hn]
    exact ⟨[], by simpa using h, by simpa using hn⟩
  · rw [if_neg hn]
    obtain ⟨spec, hs, hl, hsp⟩ := h.spec
    refine ⟨[n], ⟨?_, ?_, ?_, ?_⟩, by simp⟩
    · rw [List.nodup_append]
      exact ⟨h.nodup, by simp, by rintro a ha b hb rfl; simp only [List.mem_singleton] at hb; exact hn (hb ▸ ha)⟩
    · intro k
      simp only
      by_cases hk : k = n
      · subst hk
        rw [if_pos rfl, if_pos (by simp), List.idxOf_append_of_notMem hn]
        simp [hs.len, hl]
      · rw [if_neg hk, h.x2hg k]
        by_cases hkt : k ∈ tags
        · rw [if_pos hkt, if_pos (by simp [hkt]), List.idxOf_append_of_mem hkt]
        · rw [if_neg hkt, if_neg (by simp [hkt, hk])]
    · refine ⟨spec ++ [[]], hs.addNode _, by simp [hl], ?_⟩
      intro k hk
      rw [edgesAt_ext h.mem]
      rcases List.mem_append.1 hk with hk | hk
      · rw [List.idxOf_append_of_mem hk, ← hsp k hk]
        have := List.idxOf_lt_length_of_mem hk
        rw [List.getD_eq_getElem?_getD, List.getD_eq_getElem?_getD, List.getElem?_append_left (by omega)]
      · rw [List.mem_singleton.1 hk, edgesAt_none h.mem hn, List.idxOf_append_of_notMem hn]
        simp [← hl]
    · intro s hs' hc
      obtain ⟨h1, h2⟩ := h.mem s hs' hc
      exact ⟨List.mem_append_left _ h1, fun k hk => List.mem_append_left _ (h2 k hk)⟩

theorem FInv.nodesFor {E : Env R} {P : List PState} (ns : List Nat) : ∀ {tags : List Nat} {m : Vars R}, FInv E P tags m →
    ∃ e, FInv E P (tags ++ e) (ns.foldl (fun m n => T2S.nodeFor E n m) m) ∧ ∀ n ∈ ns, n ∈ tags ++ e := by
  induction ns with
  | nil => intro tags m h; exact ⟨[], by simpa using h, by simp⟩
  | cons n ns ih =>
    intro tags m h
    obtain ⟨e, h1, h2⟩ := h.nodeFor n
    obtain ⟨e', h3, h4⟩ := ih h1
    refine ⟨e ++ e', by rw [← List.append_assoc]; exact h3, ?_⟩
    intro k hk
    rw [← List.append_assoc]
    rcases List.mem_cons.1 hk with rfl | hk
    · exact List.mem_append_left _ h2
    · exact h4 k hk

theorem puts_shape {α : Type} (f : R → α) (ts : List Nat) (v : Nat) (rs : List R) : ∀ {g : Hypergraph α} {spec : List (List (List Nat × α))}, Shape g spec → (∀ t ∈ ts, t < spec.length) →
    v < spec.length → Shape (rs.foldl (fun g r => put g (f r) ts v) g) (spec.modify v (· ++ rs.map fun r => (ts, f r))) := by
  induction rs with
  | nil =>
    intro g spec h _ _
    have : spec.modify v (· ++ ([] : List R).map fun r => (ts, f r)) = spec := by
      simp only [List.map_nil, List.append_nil]
      exact List.modify_id v spec
    rw [this]; exact h
  | cons r rs ih =>
    intro g spec h ht hv
    have := ih (h.put (f r) ts v ht hv) (by simpa using ht) (by simpa using hv)
    rw [List.modify_modify_eq] at this
    rw [List.foldl_cons]
    have e : (fun x : List (List Nat × α) => x ++ (r :: rs).map fun r => (ts, f r)) = (fun x => x ++ rs.map fun r => (ts, f r)) ∘ fun x => x ++ [(ts, f r)] := by
      funext x; simp
    rw [e]; exact this

theorem nodeFor_queue (E : Env R) (n : Nat) (m : Vars R) : (nodeFor E n m).seen = m.seen ∧ (nodeFor E n m).q = m.q := by
  unfold nodeFor
  split <;> exact ⟨rfl, rfl⟩

theorem nodesFor_queue (E : Env R) (ns : List Nat) : ∀ m : Vars R, (ns.foldl (fun m n => nodeFor E n m) m).seen = m.seen ∧ (ns.foldl (fun m n => nodeFor E n m) m).q = m.q := by
  induction ns with
  | nil => intro m; exact ⟨rfl, rfl⟩
  | cons n ns ih =>
    intro m
    rw [List.foldl_cons, (ih _).1, (ih _).2]
    exact nodeFor_queue E n m

theorem grow_queue (E : Env R) (s : PState) (m : Vars R) : (grow E s m).seen = m.seen ∧ (grow E s m).q = m.q := by
  unfold grow
  simp only
  rw [(nodesFor_queue E _ _).1, (nodesFor_queue E _ _).2]
  exact nodeFor_queue E _ m

theorem edgesAt_snoc (E : Env R) (tags : List Nat) (P : List PState) (s : PState) (n : Nat) : edgesAt E tags (P ++ [s]) n = edgesAt E tags P n ++
    if s.task = n ∧ s.it.q = [] then ((E.gram s.g).data s.path).map fun r => (s.future.map tags.idxOf, Val.rule r (E.tf.at s.task).span.1 (E.tf.at s.task).span.2) else [] := by
  unfold edgesAt
  simp

/-- A finished state, the forest. -/
theorem FInv.grow {E : Env R} {P : List PState} {tags : List Nat} {m : Vars R} (h : FInv E P tags m) {s : PState} (hc : Complete E s) :
    ∃ e, FInv E (P ++ [s]) (tags ++ e) (grow E s m) := by
  obtain ⟨e1, h1, m1⟩ := h.nodeFor s.task
  obtain ⟨e2, h2, m2⟩ := h1.nodesFor s.future
  refine ⟨e1 ++ e2, ?_⟩
  rw [← List.append_assoc]
  have m1' : s.task ∈ tags ++ e1 ++ e2 := List.mem_append_left _ m1
  generalize hT : tags ++ e1 ++ e2 = T at *
  unfold T2S.grow
  simp only
  generalize List.foldl (fun m n => T2S.nodeFor E n m) (T2S.nodeFor E s.task m) s.future = mm at *
  obtain ⟨spec, hs, hl, hsp⟩ := h2.spec
  have ehead : (mm.x2hg s.task).getD 0 = T.idxOf s.task := by rw [h2.x2hg, if_pos m1']; rfl
  have etails : s.future.map (fun n => (mm.x2hg n).getD 0) = s.future.map T.idxOf := by
    apply List.map_congr_left
    intro n hn
    rw [h2.x2hg, if_pos (m2 n hn)]; rfl
  rw [ehead, etails]
  have hlt : T.idxOf s.task < spec.length := by rw [hl]; exact List.idxOf_lt_length_of_mem m1'
  refine ⟨h2.nodup, h2.x2hg, ⟨_, puts_shape (fun r => Val.rule r (E.tf.at s.task).span.1 (E.tf.at s.task).span.2) _ _ _ hs ?_ hlt, by simpa using hl, ?_⟩, ?_⟩
  · intro t ht
    obtain ⟨n, hn, rfl⟩ := List.mem_map.1 ht
    rw [hl]; exact List.idxOf_lt_length_of_mem (m2 n hn)
  · intro n hn
    rw [edgesAt_snoc, ← hsp n hn]
    simp only [List.getD_eq_getElem?_getD, List.getElem?_modify]
    by_cases hk : s.task = n
    · subst hk
      rw [if_pos ⟨rfl, hc.1⟩, List.getElem?_eq_getElem hlt]
      simp
    · have : ¬ T.idxOf s.task = T.idxOf n := fun e => hk ((List.idxOf_inj m1').1 e)
      rw [if_neg (fun h => hk h.1)]
      simp [this]
  · intro a ha hca
    rcases List.mem_append.1 ha with ha | ha
    · exact h2.mem a ha hca
    · rw [List.mem_singleton.1 ha]
      exact ⟨m1', m2⟩

theorem FInv.skip {E : Env R} {P : List PState} {tags : List Nat} {m m' : Vars R} (h : FInv E P tags m) {s : PState} (hc : ¬ Complete E s)
    (hf : m'.forest = m.forest) (hx : m'.x2hg = m.x2hg) : FInv E (P ++ [s]) tags m' := by
  obtain ⟨spec, hs, hl, hsp⟩ := h.spec
  refine ⟨h.nodup, by rw [hx]; exact h.x2hg, ⟨spec, by rw [hf]; exact hs, hl, ?_⟩, ?_⟩
  · intro n hn
    rw [edgesAt_snoc, hsp n hn]
    split
    · rename_i hh
      have : (E.gram s.g).data s.path = [] := Decidable.byContradiction fun hd => hc ⟨hh.2, hd⟩
      simp [this]
    · simp
  · intro a ha hca
    rcases List.mem_append.1 ha with ha | ha
    · exact h.mem a ha hca
    · rw [List.mem_singleton.1 ha] at hca
      exact absurd hca hc

theorem FInv.same {E : Env R} {P : List PState} {tags : List Nat} {m m' : Vars R} (h : FInv E P tags m) (hf : m'.forest = m.forest) (hx : m'.x2hg = m.x2hg) : FInv E P tags m' := by
  obtain ⟨a, b, c, d⟩ := h
  exact ⟨a, by rw [hx]; exact b, by rw [hf]; exact c, d⟩

/-- One iteration. -/
theorem step_inv {E : Env R} (hns : NoSites E.tf) {P : List PState} {tags : List Nat} {m : Vars R} {s : PState} {q : List PState} (h : QInv E P m) (f : FInv E P tags m) (hq : m.q = s :: q) :
    ∃ m' e, stepOne E s ⟨m.forest, m.x2hg, m.seen, q⟩ = some m' ∧ QInv E (P ++ [s]) m' ∧ FInv E (P ++ [s]) (tags ++ e) m' := by
  have hs : s ∈ m.seen := by rw [h.seen, hq]; simp
  rw [stepOne_eq E s _ ((h.fold s hs).noSite hns)]
  have hok := nexts_ok (h.fold s hs) (h.tab s hs)
  by_cases hc : Complete E s
  · rw [if_pos hc]
    obtain ⟨e, hf⟩ := (f.same (m' := ⟨m.forest, m.x2hg, m.seen, q⟩) rfl rfl).grow hc
    have hg := grow_queue E s ⟨m.forest, m.x2hg, m.seen, q⟩
    obtain ⟨ext, hp⟩ := pushes_pushed (nexts E s) (m := grow E s ⟨m.forest, m.x2hg, m.seen, q⟩) (by rw [hg.1]; exact h.fold) (fun a ha => (hok a ha).1)
    exact ⟨_, e, rfl, h.step hq hg hp, hf.same hp.forest hp.x2hg⟩
  · rw [if_neg hc]
    obtain ⟨ext, hp⟩ := pushes_pushed (nexts E s) (m := ⟨m.forest, m.x2hg, m.seen, q⟩) h.fold (fun a ha => (hok a ha).1)
    exact ⟨_, [], rfl, h.step (m0 := ⟨m.forest, m.x2hg, m.seen, q⟩) hq ⟨rfl, rfl⟩ hp, by rw [List.append_nil]; exact f.skip hc hp.forest hp.x2hg⟩

/-- Grammars are finite. -/
def Env.Within (E : Env R) (U : List (List Sym)) : Prop := ∀ g p, (E.gram g).has p = true → p ∈ U

/-- The states that can occur. -/
theorem seen_bound {E : Env R} {U : List (List Sym)} (hU : E.Within U) {P : List PState} {m : Vars R} (h : QInv E P m) :
    m.seen.length ≤ E.grams.length * (E.tf.length * U.length) := by
  have hsub : m.seen.map PState.key ⊆ (List.range E.grams.length) ×ˢ ((List.range E.tf.length) ×ˢ U) := by
    intro k hk
    obtain ⟨s, hs, rfl⟩ := List.mem_map.1 hk
    unfold PState.key
    rw [List.mem_product, List.mem_product, List.mem_range, List.mem_range]
    refine ⟨?_, ?_, hU _ _ (h.has s hs)⟩
    · apply Decidable.byContradiction
      intro hl
      have := h.has s hs
      unfold Env.gram at this
      rw [List.getD_eq_getElem?_getD, List.getElem?_eq_none (by simpa using hl)] at this
      simp [Trie.empty] at this
    · obtain ⟨i, t, ht⟩ := h.tab s hs
      exact Tab.lt ht
  have := (h.nodup.subperm hsub).length_le
  simpa [List.length_product] using this

/-- The loop ends with an empty queue. -/
theorem mainLoop_inv {E : Env R} (hns : NoSites E.tf) {U : List (List Sym)} (hU : E.Within U) (fuel : Nat) : ∀ {P : List PState} {tags : List Nat} {m : Vars R}, QInv E P m → FInv E P tags m →
    E.grams.length * (E.tf.length * U.length) < P.length + fuel → ∃ P' tags' m', mainLoop E fuel m = some m' ∧ m'.q = [] ∧ QInv E P' m' ∧ FInv E P' tags' m' := by
  induction fuel with
  | zero =>
    intro P tags m h f hf
    have := seen_bound hU h
    have e : m.seen.length = P.length + m.q.length := by rw [h.seen]; simp
    omega
  | succ fuel ih =>
    intro P tags m h f hf
    cases hq : m.q with
    | nil => exact ⟨P, tags, m, by simp [mainLoop, hq], hq, h, f⟩
    | cons s q =>
      obtain ⟨m1, e, h1, h2, h3⟩ := step_inv hns h f hq
      obtain ⟨P', tags', m', h4, h5⟩ := ih h2 h3 (by simp; omega)
      refine ⟨P', tags', m', ?_, h5⟩
      simp only [mainLoop, hq, h1, h4]

theorem finv_start (E : Env R) : FInv E [] [] (start E) :=
  ⟨by simp, by simp [start], ⟨[], shape_empty, rfl, by simp⟩, by simp⟩

end Cdec.Dec.T2S
