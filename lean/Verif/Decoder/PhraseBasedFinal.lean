import Verif.Decoder.PhraseBasedSem
/-! The goal node and the order of the nodes for the phrase-based translator. -/
namespace Cdec.Dec.PB
open Cdec.HG Spec
open Cdec.Dec.Parser (shows_iff shows_map)
open Cdec.Dec.Parser.Spec (LTree Shows)
variable {R : Type} {x : Ctx R}

/-- Ranks of the nodes. -/
def rank (tags : List Tag) (n v : Nat) : Nat :=
  match tags[v]? with
  | some (.cov C) => C.count true
  | some (.phr _) => 0
  | none => n + 1

theorem rank_idx {tags : List Tag} {a : Tag} (h : a ∈ tags) (n : Nat) : rank tags n (tags.idxOf a) = match a with | .cov C => C.count true | .phr _ => 0 := by
  unfold rank
  rw [List.getElem?_eq_getElem (idx_lt h), List.getElem_idxOf]
  cases a <;> rfl

section
variable (hf : Fst.Ok x.fst) {P : List Key} {ucs : List (List Bool)} (hQ : QInv x P [] ucs) {g : Hypergraph (Val R)} {c : List Bool → Option Nat} {tags : List Tag}
  (hF : FInv x P g c tags) {F : Hypergraph (Val R)} (hA : ∀ w < g.nodes.length, F.apps w = g.apps w)
include hf hQ hF hA

theorem tails_of {v e : Nat} (he : e ∈ F.inE v) {a : List Nat × Val R} (h : F.app e = some a) : F.tails e = a.1 := by
  obtain ⟨ed, h1, h2, _⟩ := app_eq.1 (show F.app e = some (a.1, a.2) from h)
  unfold Hypergraph.tails
  rw [h1]
  exact h2

theorem node_rank {v : Nat} (hv : v < g.nodes.length) {e : Nat} (he : e ∈ F.inE v) {t : Nat} (ht : t ∈ F.tails e) :
    t < g.nodes.length ∧ rank tags x.n t < rank tags x.n v := by
  have hvt : v < tags.length := by rw [hF.len]; exact hv
  have hidx : tags.idxOf tags[v] = v := hF.nodup.idxOf_getElem v hvt
  have hm : tags[v] ∈ tags := List.getElem_mem hvt
  have happ : F.app e ∈ F.apps v := List.mem_map.2 ⟨e, he, rfl⟩
  cases hta : tags[v] with
  | phr k =>
    rw [hta] at hidx hm
    rw [← hidx, apps_phr hF hA hm] at happ
    obtain ⟨r, _, e1⟩ := List.mem_map.1 happ
    rw [tails_of hf hQ hF hA he e1.symm] at ht
    simp at ht
  | cov C =>
    rw [hta] at hidx hm
    rw [← hidx, apps_cov hF hA hm] at happ
    have hrv : rank tags x.n v = C.count true := by rw [← hidx, rank_idx hm]
    obtain ⟨a, ha⟩ : ∃ a, F.app e = some a := by
      cases h : F.app e with
      | some a => exact ⟨a, rfl⟩
      | none =>
        rw [h] at happ
        unfold covApps at happ
        obtain ⟨k, _, h2⟩ := List.mem_flatMap.1 happ
        split at h2
        · unfold contrib at h2
          split at h2
          · obtain ⟨r, _, e⟩ := List.mem_map.1 h2
            simp at e
          · simp at h2
        · simp at h2
    rw [ha] at happ
    rw [tails_of hf hQ hF hA he ha] at ht
    obtain ⟨tl, val⟩ := a
    rcases (mem_covApps hf hQ hF).1 happ with ⟨k, hk, hd, ho, hn, r, hr, rfl, rfl⟩ | ⟨k, hk, hd, ho, hn, rfl, rfl⟩
    · simp at ht
    · have hct := cov_tag hf hQ hF hA hk hn
      have hpt := (hF.mem_phr k).2 ⟨hk, hd, hn⟩
      have hlt := count_lt hf hQ hk hd
      rw [hrv, ← ho]
      simp only [List.mem_cons, List.not_mem_nil, or_false] at ht
      rcases ht with rfl | rfl
      · rw [← hF.len, rank_idx hct]
        exact ⟨idx_lt hct, hlt⟩
      · rw [← hF.len, rank_idx hpt]
        exact ⟨idx_lt hpt, by simp only; omega⟩

theorem pb_acyclic {v : Nat} (hv : v < g.nodes.length) (hgoal : F.apps g.nodes.length = [some ([v], .goal)]) : AcyclicFrom F (fun _ => false) g.nodes.length := by
  have gt : ∀ e ∈ F.inE g.nodes.length, F.tails e = [v] := by
    intro e he
    have : F.app e ∈ F.apps g.nodes.length := List.mem_map.2 ⟨e, he, rfl⟩
    rw [hgoal, List.mem_singleton] at this
    exact tails_of hf hQ hF hA he this
  have hreach : ∀ w, Reach F (fun _ => false) g.nodes.length w → w = g.nodes.length ∨ w < g.nodes.length := by
    intro w hw
    induction hw with
    | goal => exact .inl rfl
    | tail _ he _ ht ih =>
      right
      rcases ih with rfl | h
      · rw [gt _ he, List.mem_singleton] at ht
        rw [ht]; exact hv
      · exact (node_rank hf hQ hF hA h he ht).1
  refine ⟨rank tags x.n, ?_⟩
  intro w hw e he _ t ht
  rcases hreach w hw with rfl | h
  · rw [gt e he, List.mem_singleton] at ht
    subst ht
    have h1 : rank tags x.n g.nodes.length = x.n + 1 := by
      unfold rank
      rw [List.getElem?_eq_none (by rw [hF.len])]
    rw [h1]
    clear h1
    have hvt : t < tags.length := by rw [hF.len]; exact hv
    unfold rank
    rw [List.getElem?_eq_getElem hvt]
    cases hta : tags[t] with
    | phr k => simp
    | cov C =>
      simp only
      have hm : tags[t] ∈ tags := List.getElem_mem hvt
      rw [hta] at hm
      obtain ⟨k, hk, hd, rfl⟩ := (hF.mem_cov C).1 hm
      obtain ⟨s, hs, rfl⟩ := hQ.pok k hk
      have h2 := List.count_le_length (a := true) (l := out s.key)
      rw [hs.out_len] at h2
      omega
  · exact (node_rank hf hQ hF hA h he ht).2

end

/-- The whole of the translator. -/
theorem translate_core (hf : Fst.Ok x.fst) : ∃ ok g F, (∀ fuel, F ≤ fuel → translate x.env fuel = some (ok, g)) ∧
    (ok = true ↔ ∃ l, Translation x.rules x.n x.dist l) ∧
    (ok = true → WF g ∧ 0 < g.nodes.length ∧ (∀ t, (∃ T, IsDeriv g g.goal T ∧ Shows g T t) ↔ ∃ l, Translation x.rules x.n x.dist l ∧ t = goalTree l) ∧
      ((∀ i j, (x.rules i j).Nodup) → ∀ T T' t, IsDeriv g g.goal T → IsDeriv g g.goal T' → Shows g T t → Shows g T' t → T = T')) := by
  obtain ⟨P, m, F0, hL, hq, hrun⟩ := loop_spec hf
  have hQ : QInv x P [] m.ucs := by
    have := hL.1
    rwa [hq] at this
  obtain ⟨tags, hF⟩ := hL.2
  have hlat : x.env.lat.length = x.n := lat_length
  have hmap := hF.map (List.replicate x.n true)
  by_cases hfull : List.replicate x.n true ≠ x.none ∧ Tag.cov (List.replicate x.n true) ∈ tags
  · rw [if_neg hfull.1, if_pos hfull.2] at hmap
    generalize hvd : tags.idxOf (.cov (List.replicate x.n true)) = v at hmap
    have hv : v < m.forest.nodes.length := by rw [← hvd, ← hF.len]; exact idx_lt hfull.2
    generalize hFd : connect (addEdge (addNode m.forest x.env.catGoal) .goal [v]) (addNode m.forest x.env.catGoal).edges.length m.forest.nodes.length = G
    obtain ⟨g1, g2, g3, _⟩ := grow_old (inv_addNode hF.inv x.env.catGoal) Val.goal [v] (by
      intro t ht
      rw [List.mem_singleton.1 ht]
      simp only [addNode, List.length_append, List.length_singleton]
      omega) m.forest.nodes.length (by simp [addNode])
    rw [hFd] at g1 g2 g3
    have hlen : G.nodes.length = m.forest.nodes.length + 1 := by rw [g2]; simp [addNode]
    have hA : ∀ w < m.forest.nodes.length, G.apps w = m.forest.apps w := by
      intro w hw
      rw [g3, if_neg (by omega), addNode_apps]
    have hgoal : G.apps m.forest.nodes.length = [some ([v], .goal)] := by
      rw [g3, if_pos rfl, addNode_apps, apps_oob _ _ (Nat.le_refl _)]
      rfl
    have hac := pb_acyclic hf hQ hF hA hv hgoal
    obtain ⟨g, f, pos, ⟨k, hk⟩, wf, hpos, _, _, _, _, hbij, hgp⟩ := C06_topological_sort G g1.inRange (fun _ => false) m.forest.nodes.length (by omega) hac
    have bij := hbij _ _ hgp
    have hav : ∀ T, Avoids (fun _ => false) T := fun T e _ => rfl
    have hshow : ∀ T t, IsDeriv G m.forest.nodes.length T → (Shows g (T.map f) t ↔ Shows G T t) := by
      intro T t hT
      exact shows_map T t fun e he => (bij.payload T hT (hav T) e he).2.2
    have hG : ∀ t, DShows G m.forest.nodes.length t ↔ ∃ l, Translation x.rules x.n x.dist l ∧ t = goalTree l := by
      rintro ⟨val, ts⟩
      rw [dshows_iff, hgoal]
      constructor
      · rintro ⟨tl, hm, hts⟩
        simp only [List.mem_singleton, Option.some.injEq, Prod.mk.injEq] at hm
        obtain ⟨rfl, rfl⟩ := hm
        cases hts with
        | cons d hts =>
        cases hts
        rw [← hvd] at d
        obtain ⟨l, h1, h2, rfl⟩ := (cov_shows' hf hQ hF hA hfull.2 _).1 d
        exact ⟨l, (translation_iff l).2 ⟨h1, h2⟩, rfl⟩
      · rintro ⟨l, hl, e⟩
        simp only [goalTree, LTree.node.injEq] at e
        obtain ⟨rfl, rfl⟩ := e
        refine ⟨[v], by simp, .cons ?_ .nil⟩
        rw [← hvd]
        obtain ⟨h1, h2⟩ := (translation_iff l).1 hl
        exact (cov_shows' hf hQ hF hA hfull.2 _).2 ⟨l, h1, h2, rfl⟩
    have hlang : ∀ t, (∃ T, IsDeriv g g.goal T ∧ Shows g T t) ↔ ∃ l, Translation x.rules x.n x.dist l ∧ t = goalTree l := by
      intro t
      rw [← hG t]
      constructor
      · rintro ⟨T', h1, h2⟩
        obtain ⟨T, h3, _, rfl⟩ := bij.bwd T' h1
        exact ⟨T, h3, (hshow T t h3).1 h2⟩
      · rintro ⟨T, h1, h2⟩
        exact ⟨T.map f, bij.fwd T h1 (hav T), (hshow T t h1).2 h2⟩
    refine ⟨true, g, F0 + k, ?_, ?_, fun _ => ⟨wf, hpos, hlang, ?_⟩⟩
    · intro fuel hfuel
      unfold translate
      rw [hrun fuel (by omega)]
      simp only [hlat, hmap, hFd]
      rw [hk fuel (by omega)]
      rfl
    · simp only [true_iff]
      have hu : List.replicate x.n true ∈ m.ucs := (hQ.seen _).2 (.inr ((hF.mem_cov _).1 hfull.2))
      obtain ⟨l, hl⟩ := ucs_run hf hQ _ _ hu (Nat.le_refl _)
      refine ⟨l, (translation_iff l).2 ⟨?_, hl⟩⟩
      rintro rfl
      exact hfull.1 hl.nil_iff
    · intro hnd T T' t d d' hs hs'
      obtain ⟨U, u1, _, rfl⟩ := bij.bwd T d
      obtain ⟨U', u1', _, rfl⟩ := bij.bwd T' d'
      have s1 := (hshow U t u1).1 hs
      have s1' := (hshow U' t u1').1 hs'
      suffices U = U' by rw [this]
      obtain ⟨e, ch⟩ := U
      obtain ⟨e', ch'⟩ := U'
      obtain ⟨val, ts⟩ := t
      obtain ⟨he, hch⟩ := isDeriv_iff.1 u1
      obtain ⟨he', hch'⟩ := isDeriv_iff.1 u1'
      obtain ⟨y, hy, hyv, hts⟩ := shows_iff.1 s1
      obtain ⟨y', hy', hyv', hts'⟩ := shows_iff.1 s1'
      obtain ⟨e0, he0⟩ : ∃ e, G.inE m.forest.nodes.length = [e] := by
        have : (G.apps m.forest.nodes.length).length = 1 := by rw [hgoal]; rfl
        unfold Hypergraph.apps at this
        rw [List.length_map] at this
        exact List.length_eq_one_iff.1 this
      have q1 : e = e0 := by rw [he0] at he; exact List.mem_singleton.1 he
      have q2 : e' = e0 := by rw [he0] at he'; exact List.mem_singleton.1 he'
      have htl : G.tails e0 = [v] := by
        have h0 : e0 ∈ G.inE m.forest.nodes.length := by rw [he0]; simp
        have : G.app e0 ∈ G.apps m.forest.nodes.length := List.mem_map.2 ⟨e0, h0, rfl⟩
        rw [hgoal, List.mem_singleton] at this
        exact tails_of hf hQ hF hA h0 this
      subst q1
      subst q2
      rw [htl, ← hvd] at hch hch'
      match hch, hts with
      | .cons a1 .nil, .cons b1 .nil =>
        match hch', hts' with
        | .cons a1' .nil, .cons b1' .nil =>
          rw [cov_unique hf hQ hF hA hnd _ _ (Nat.le_refl _) hfull.2 _ _ _ a1 a1' b1 b1']
  · refine ⟨false, m.forest, F0, ?_, ?_, by simp⟩
    · intro fuel hfuel
      unfold translate
      rw [hrun fuel hfuel]
      simp only [hlat]
      by_cases h1 : List.replicate x.n true = x.none
      · rw [if_pos h1] at hmap
        rw [hmap]
      · have h2 : ¬ Tag.cov (List.replicate x.n true) ∈ tags := fun h => hfull ⟨h1, h⟩
        rw [if_neg h1, if_neg h2] at hmap
        rw [hmap]
    · simp only [Bool.false_eq_true, false_iff]
      rintro ⟨l, hl⟩
      obtain ⟨h1, h2⟩ := (translation_iff l).1 hl
      apply hfull
      refine ⟨h2.ne h1, ?_⟩
      rcases (hQ.seen _).1 (run_ucs hf hQ h2) with h | h
      · exact absurd h (h2.ne h1)
      · exact (hF.mem_cov _).2 h

end Cdec.Dec.PB
