import Verif.Decoder.Tree2StringForest
import Verif.Decoder.ParserFinal
import Verif.Decoder.ParserMain
import Verif.Decoder.PhraseBasedSem
import Verif.Props.C07
/-! What the forest of the tree-to-string translator stands for. -/
namespace Cdec.Dec.T2S
open Cdec.HG Spec
open Cdec.Dec.Parser (shows_iff shows_map)
open Cdec.Dec.Parser.Spec (LTree Shows)
variable {R : Type}

/-- A grammar as a trie: nodes lie below the start, rules lie at nodes. -/
structure Trie.Ok (T : Trie R) : Prop where
  closed : ∀ p y, T.has (p ++ [y]) = true → T.has p = true
  data : ∀ p, T.data p ≠ [] → T.has p = true

theorem Trie.Ok.start {T : Trie R} (h : T.Ok) (p : List Sym) : T.has p = true → T.has [] = true := by
  induction p using List.reverseRecOn with
  | nil => exact id
  | append_singleton p y ih => exact fun hp => ih (h.closed p y hp)

/-- Which rules are used for a fragment. -/
def Use (E : Env R) (f : Frag) (r : R) : Prop := ∃ g, r ∈ (E.gram g).data f.lin

section
variable {E : Env R} (hok : ∀ g, (E.gram g).Ok) {P : List PState} {m : Vars R} {tags : List Nat} (hQ : QInv E P m) (hq : m.q = []) (hF : FInv E P tags m)

include hQ hq in
theorem seen_eq : m.seen = P := by rw [hQ.seen, hq]; simp

include hok hQ hq in
/-- A path of the grammar is followed to its end. -/
theorem followed (n g : Nat) (hb : g ∈ live E → begins E n g ∈ P) (p : List Sym) : ∀ it fs, p.foldlM (istep E.tf) (.begin E.tf n, []) = some (it, fs) → (E.gram g).has p = true →
    ⟨it, fs, n, g, p⟩ ∈ P := by
  induction p using List.reverseRecOn with
  | nil =>
    intro it fs h hh
    simp only [List.foldlM_nil, pure, Option.some.injEq, Prod.mk.injEq] at h
    obtain ⟨rfl, rfl⟩ := h
    exact hb (mem_live.2 hh)
  | append_singleton p y ih =>
    intro it fs h hh
    rw [List.foldlM_append] at h
    cases h1 : p.foldlM (istep E.tf) (.begin E.tf n, []) with
    | none => rw [h1] at h; simp at h
    | some b =>
      rw [h1] at h
      obtain ⟨it', fs'⟩ := b
      simp only [Option.bind_eq_bind, Option.bind_some, List.foldlM_cons, List.foldlM_nil, bind_pure] at h
      have hm := ih it' fs' h1 ((hok g).closed p y hh)
      have := hQ.next _ hm y it fs hh h
      rwa [seen_eq hQ hq] at this

/-- The rules at a node have been tried. -/
def Tried (E : Env R) (P : List PState) (n : Nat) : Prop := ∀ g ∈ live E, begins E n g ∈ P

include hok hQ hq hF in
theorem lang_deriv {spec : List (List (List Nat × Val R))} (hsp : ∀ n ∈ tags, spec.getD (tags.idxOf n) [] = edgesAt E tags P n) (n : Nat) : ∀ i t, Tab true E.tf n i t → Tried E P n →
    ∀ d, (n ∈ tags ∧ Lang spec (tags.idxOf n) d) ↔ Deriv (Use E) i t d := by
  induction n using Nat.strongRecOn with
  | ind n ih =>
    intro i t ht hb d
    obtain ⟨x, ch⟩ := d
    obtain ⟨cs, et, hspan, _⟩ := Tab.elim ht
    have hspan := hspan rfl
    have hw : i + t.width = i + widths cs := by rw [et, width_node]
    have kids : ∀ s ∈ P, s.task = n → Complete E s → ∀ (ss : List (Nat × Frag)) (ch : List (LTree (Val R))), SiteNodes true E.tf s.future ss → (∀ k ∈ s.future, k < n) →
        (List.Forall₂ (Lang spec) (s.future.map tags.idxOf) ch ↔ List.Forall₂ (fun s d => Deriv (Use E) s.1 s.2 d) ss ch) := by
      intro s hs hsn hc ss ch hsn' hlt
      have hmem := (hF.mem s hs hc).2
      have htr : ∀ k ∈ s.future, Tried E P k := by
        intro k hk g hg
        have := hQ.work s hs hc k hk g hg
        rwa [seen_eq hQ hq] at this
      generalize s.future = ns at hsn' hlt hmem htr
      clear hs hsn hc
      induction hsn' generalizing ch with
      | nil =>
        constructor
        · intro h
          cases h
          exact .nil
        · intro h
          cases h
          exact .nil
      | @cons k x ns ss hk _ ih' =>
        have hk' := ih k (hlt k (by simp)) x.1 x.2 hk (htr k (by simp))
        constructor
        · intro h
          cases h with
          | cons h1 h2 =>
            exact .cons ((hk' _).1 ⟨hmem k (by simp), h1⟩) ((ih' _ (fun a ha => hlt a (by simp [ha])) (fun a ha => hmem a (by simp [ha])) (fun a ha => htr a (by simp [ha]))).1 h2)
        · intro h
          cases h with
          | cons h1 h2 =>
            exact .cons ((hk' _).2 h1).2 ((ih' _ (fun a ha => hlt a (by simp [ha])) (fun a ha => hmem a (by simp [ha])) (fun a ha => htr a (by simp [ha]))).2 h2)
    constructor
    · rintro ⟨hn, hl⟩
      obtain ⟨ts, h1, h2⟩ := lang_iff.1 hl
      rw [hsp n hn] at h1
      obtain ⟨s, hs, h1⟩ := List.mem_flatMap.1 h1
      split at h1
      · rename_i hc
        obtain ⟨r, hr, e⟩ := List.mem_map.1 h1
        simp only [Prod.mk.injEq] at e
        obtain ⟨rfl, rfl⟩ := e
        have hcomp : Complete E s := ⟨hc.2, List.ne_nil_of_mem hr⟩
        have hen : Ends E.tf n s.path s.future := by
          rw [← hc.1]
          exact (hQ.fold s (by rw [seen_eq hQ hq]; exact hs)).ends hc.2
        obtain ⟨f, ss, f1, f2, f3, f4, f5⟩ := ends_cut ht hen
        rw [hc.1, hspan]
        simp only
        rw [← hw]
        exact .mk f1 ⟨s.g, f5 ▸ hr⟩ f2 ((kids s hs hc.1 hcomp ss ch f3 f4).1 h2)
      · simp at h1
    · intro hd
      cases hd with
      | @mk _ _ f r ss _ f1 f2 f3 f4 =>
        obtain ⟨g, hr⟩ := f2
        obtain ⟨ns, e1, e2, e3⟩ := cut_ends ht f1 f3
        obtain ⟨it, e4, e5⟩ := e1
        have hs := followed hok hQ hq n g (hb g) f.lin it ns e4 ((hok g).data _ (List.ne_nil_of_mem hr))
        have hcomp : Complete E ⟨it, ns, n, g, f.lin⟩ := ⟨e5, List.ne_nil_of_mem hr⟩
        have hn := (hF.mem _ hs hcomp).1
        refine ⟨hn, lang_iff.2 ⟨ns.map tags.idxOf, ?_, (kids _ hs rfl hcomp ss ch e2 e3).2 f4⟩⟩
        rw [hsp n hn]
        refine List.mem_flatMap.2 ⟨_, hs, ?_⟩
        rw [if_pos ⟨rfl, e5⟩]
        refine List.mem_map.2 ⟨r, hr, ?_⟩
        simp only [hspan, hw]

/-- Ranks of the nodes of the forest. -/
def rankOf (tags : List Nat) (v : Nat) : Nat := tags.getD v 0

theorem rankOf_idx {tags : List Nat} {n : Nat} (h : n ∈ tags) : rankOf tags (tags.idxOf n) = n := by
  unfold rankOf
  rw [List.getD_eq_getElem?_getD, List.getElem?_eq_getElem (List.idxOf_lt_length_of_mem h)]
  simp

include hQ hq hF in
theorem forest_ranked {spec : List (List (List Nat × Val R))} (hs : Shape m.forest spec) (hl : spec.length = tags.length)
    (hsp : ∀ n ∈ tags, spec.getD (tags.idxOf n) [] = edgesAt E tags P n) : Ranked m.forest (fun _ => false) (rankOf tags) := by
  intro v e he _ t ht
  obtain ⟨x, _, e1, e2⟩ := hs.edge he
  have hv : v < tags.length := by
    rw [← hl]
    apply Decidable.byContradiction
    intro hc
    rw [List.getD_eq_getElem?_getD, List.getElem?_eq_none (by omega)] at e2
    simp at e2
  have hid : tags.idxOf tags[v] = v := hF.nodup.idxOf_getElem v hv
  have hm : tags[v] ∈ tags := List.getElem_mem hv
  rw [← hid, hsp _ hm] at e2
  obtain ⟨s, hsP, h1⟩ := List.mem_flatMap.1 e2
  split at h1
  · rename_i hc
    obtain ⟨r, hr, e3⟩ := List.mem_map.1 h1
    simp only [Prod.mk.injEq] at e3
    rw [e1, ← e3.1] at ht
    obtain ⟨k, hk, rfl⟩ := List.mem_map.1 ht
    have hsm : s ∈ m.seen := by rw [seen_eq hQ hq]; exact hsP
    obtain ⟨i, t, htab⟩ := hQ.tab s hsm
    obtain ⟨_, _, _, _, _, hlt, _⟩ := ends_cut htab ((hQ.fold s hsm).ends hc.2)
    have hkt := (hF.mem s hsP ⟨hc.2, List.ne_nil_of_mem hr⟩).2 k hk
    rw [← hid, rankOf_idx hkt, rankOf_idx hm, ← hc.1]
    exact hlt k hk
  · simp at h1

/-- No rule occurs twice in the grammars. -/
def Distinct (E : Env R) : Prop := (∀ g p, ((E.gram g).data p).Nodup) ∧ ∀ g p g' p' r, r ∈ (E.gram g).data p → r ∈ (E.gram g').data p' → g = g' ∧ p = p'

include hQ hq hF in
theorem forest_once (hd : Distinct E) {spec : List (List (List Nat × Val R))} (hl : spec.length = tags.length)
    (hsp : ∀ n ∈ tags, spec.getD (tags.idxOf n) [] = edgesAt E tags P n) (v : Nat) : ((spec.getD v []).map (·.2)).Nodup := by
  rcases Nat.lt_or_ge v tags.length with hv | hv
  · have hid : tags.idxOf tags[v] = v := hF.nodup.idxOf_getElem v hv
    rw [← hid, hsp _ (List.getElem_mem hv)]
    unfold edgesAt
    rw [List.map_flatMap, List.nodup_flatMap]
    constructor
    · intro s hs
      split
      · rw [List.map_map]
        refine (hd.1 s.g s.path).map ?_
        intro a b e
        simpa using e
      · simp
    · have hn : (P.map PState.key).Nodup := by rw [← seen_eq hQ hq]; exact hQ.nodup
      unfold List.Nodup at hn
      rw [List.pairwise_map] at hn
      refine hn.imp ?_
      intro a b hab x hx hx'
      apply hab
      simp only at hx hx'
      split at hx
      · split at hx'
        · rename_i ha hb
          rw [List.map_map] at hx hx'
          obtain ⟨r, hr, e⟩ := List.mem_map.1 hx
          obtain ⟨r', hr', e'⟩ := List.mem_map.1 hx'
          rw [← e'] at e
          simp only [Function.comp_apply, Val.rule.injEq] at e
          rw [e.1] at hr
          obtain ⟨e1, e2⟩ := hd.2 _ _ _ _ _ hr hr'
          simp only [PState.key, Prod.mk.injEq]
          exact ⟨e1, ha.1.trans hb.1.symm, e2⟩
        · simp at hx'
      · simp at hx
  · rw [List.getD_eq_getElem?_getD, List.getElem?_eq_none (by omega)]
    simp

end

/-! ### The goal node -/

section
variable {h : Hypergraph (Val R)} {E : Env R}

theorem goal_spec (hc : Consistent h) (hn : 0 < h.nodes.length) : Consistent (addGoal E h) ∧ (addGoal E h).nodes.length = h.nodes.length + 1 ∧
    (∀ w < h.nodes.length, (addGoal E h).inE w = h.inE w) ∧ (addGoal E h).inE h.nodes.length = [h.edges.length] ∧
    (∀ e < h.edges.length, (addGoal E h).app e = h.app e) ∧ (addGoal E h).app h.edges.length = some ([h.nodes.length - 1], .goal) := by
  have hlen : (addNode h E.catGoal).nodes.length = h.nodes.length + 1 := by simp [addNode]
  have hl2 : (addEdge (addNode h E.catGoal) Val.goal [h.nodes.length - 1]).nodes.length = h.nodes.length + 1 := by
    simp [addEdge, indexTails_length, addNode]
  obtain ⟨g1, g2, _, _⟩ := grow_old (inv_addNode hc E.catGoal) Val.goal [h.nodes.length - 1] (by
    intro t ht
    rw [List.mem_singleton.1 ht, hlen]
    omega) h.nodes.length (by omega)
  refine ⟨g1, g2.trans hlen, ?_, ?_, ?_, ?_⟩
  · intro w hw
    unfold addGoal put
    rw [inE_connect _ _ _ _ (by omega), if_neg (by omega), inE_addEdge, inE_addNode]
  · unfold addGoal put
    rw [inE_connect _ _ _ _ (by omega), if_pos rfl, inE_addEdge, inE_addNode, inE_oob _ _ (Nat.le_refl _)]
    rfl
  · intro e he
    unfold addGoal put
    rw [app_connect, app_addEdge, app_addNode, if_neg (by simp [addNode]; omega)]
  · unfold addGoal put
    rw [app_connect, app_addEdge, if_pos (by simp [addNode])]

theorem app_tails {α : Type} {g : Hypergraph α} {e : Nat} {a : List Nat × α} (h : g.app e = some a) : g.tails e = a.1 := by
  unfold Hypergraph.app at h
  unfold Hypergraph.tails
  cases hx : g.edges[e]? with
  | none => rw [hx] at h; cases h
  | some x =>
    rw [hx] at h
    simp only [Option.map_some, Option.some.injEq] at h
    rw [← h]

theorem app_congr {α : Type} {g h : Hypergraph α} {e : Nat} (he : g.app e = h.app e) : g.tails e = h.tails e ∧ (g.edges[e]?).map Edge.val = (h.edges[e]?).map Edge.val := by
  unfold Hypergraph.app at he
  unfold Hypergraph.tails
  cases hx : g.edges[e]? <;> cases hy : h.edges[e]? <;> rw [hx, hy] at he <;> simp_all

theorem goal_below (hc : Consistent h) (hn : 0 < h.nodes.length) {v : Nat} (hv : v < h.nodes.length) (T : Tree) :
    IsDeriv (addGoal E h) v T ↔ IsDeriv h v T := by
  obtain ⟨_, _, h3, _, h5, _⟩ := goal_spec (E := E) hc hn
  constructor
  · intro hT
    induction hT with
    | @mk v e ch he hlen hch ih =>
      rw [h3 v hv] at he
      have ht := (app_congr (h5 e (Cdec.HG.Inv.inE_lt hc he))).1
      refine .mk he (by rw [hlen, ht]) ?_
      intro i hi
      have hlt : ((addGoal E h).tails e)[i]'(by omega) < h.nodes.length := by
        apply (Cdec.HG.Inv.inRange hc).tail_lt v hv e he
        rw [← ht]
        exact List.getElem_mem _
      have := ih i hi hlt
      simpa only [ht] using this
  · intro hT
    induction hT with
    | @mk v e ch he hlen hch ih =>
      have ht := (app_congr (h5 e (Cdec.HG.Inv.inE_lt hc he))).1
      refine .mk (by rw [h3 v hv]; exact he) (by rw [hlen, ht]) ?_
      intro i hi
      have hlt : (h.tails e)[i]'(by omega) < h.nodes.length := by
        apply (Cdec.HG.Inv.inRange hc).tail_lt v hv e he
        exact List.getElem_mem _
      have := ih i hi hlt
      simpa only [ht] using this

theorem deriv_edges (hc : Consistent h) {v : Nat} {T : Tree} (hT : IsDeriv h v T) : ∀ e ∈ T.edges, e < h.edges.length := by
  induction hT with
  | @mk v e ch he hlen hch ih =>
    intro e' he'
    rw [Tree.edges] at he'
    rcases List.mem_cons.1 he' with rfl | he'
    · exact Cdec.HG.Inv.inE_lt hc he
    · obtain ⟨T, hT, he'⟩ := List.mem_flatMap.1 he'
      obtain ⟨i, hi, rfl⟩ := List.getElem_of_mem hT
      exact ih i hi e' he'

theorem tree_map_id (T : Tree) : T.map id = T := by
  induction T using Tree.rec (motive_2 := fun ch => ch.map (fun t => t.map id) = ch) with
  | node e ch ih => rw [Tree.map, ih]; rfl
  | nil => rfl
  | cons t ts h1 h2 => rw [List.map_cons, h1, h2]

theorem goal_shows (hc : Consistent h) (hn : 0 < h.nodes.length) {v : Nat} {T : Tree} (hT : IsDeriv h v T) (d : LTree (Val R)) : Shows (addGoal E h) T d ↔ Shows h T d := by
  obtain ⟨_, _, _, _, h5, _⟩ := goal_spec (E := E) hc hn
  have := shows_map (g := h) (h := addGoal E h) (f := id) T d (fun e he => (app_congr (h5 e (deriv_edges hc hT e he))).2)
  rwa [tree_map_id] at this

theorem goal_deriv (hc : Consistent h) (hn : 0 < h.nodes.length) (T : Tree) :
    IsDeriv (addGoal E h) h.nodes.length T ↔ ∃ T', T = .node h.edges.length [T'] ∧ IsDeriv h (h.nodes.length - 1) T' := by
  obtain ⟨_, _, _, h4, _, h6⟩ := goal_spec (E := E) hc hn
  obtain ⟨e, ch⟩ := T
  rw [isDeriv_iff, h4, List.mem_singleton]
  constructor
  · rintro ⟨rfl, hch⟩
    rw [app_tails h6] at hch
    cases hch with
    | cons a b =>
      cases b
      exact ⟨_, rfl, (goal_below hc hn (by omega) _).1 a⟩
  · rintro ⟨T', e1, hT'⟩
    cases e1
    refine ⟨rfl, ?_⟩
    rw [app_tails h6]
    exact .cons ((goal_below hc hn (by omega) _).2 hT') .nil

theorem goal_shows_iff (hc : Consistent h) (hn : 0 < h.nodes.length) {T' : Tree} (hT' : IsDeriv h (h.nodes.length - 1) T') (d : LTree (Val R)) :
    Shows (addGoal E h) (.node h.edges.length [T']) d ↔ ∃ d', d = .node .goal [d'] ∧ Shows h T' d' := by
  obtain ⟨_, _, _, _, _, h6⟩ := goal_spec (E := E) hc hn
  obtain ⟨x, ch⟩ := d
  rw [shows_iff]
  unfold Hypergraph.app at h6
  cases hx : (addGoal E h).edges[h.edges.length]? with
  | none => rw [hx] at h6; cases h6
  | some y =>
    rw [hx] at h6
    simp only [Option.map_some, Option.some.injEq, Prod.mk.injEq] at h6
    constructor
    · rintro ⟨z, hz, rfl, hf⟩
      cases hz
      cases hf with
      | cons a b =>
        cases b
        exact ⟨_, by rw [h6.2], (goal_shows hc hn hT' _).1 a⟩
    · rintro ⟨d', e, hd⟩
      cases e
      exact ⟨y, rfl, h6.2, .cons ((goal_shows hc hn hT' _).2 hd) .nil⟩

theorem goal_wf (hc : Consistent h) (hn : 0 < h.nodes.length) (hw : WF h) : WF (addGoal E h) := by
  obtain ⟨h1, h2, h3, h4, h5, h6⟩ := goal_spec (E := E) hc hn
  refine ⟨(Cdec.HG.Inv.inRange h1).edge_lt, (Cdec.HG.Inv.inRange h1).nodup, ?_⟩
  intro v hv e he t ht
  rcases Nat.lt_or_ge v h.nodes.length with hlt | hge
  · rw [h3 v hlt] at he
    rw [(app_congr (h5 e (Cdec.HG.Inv.inE_lt hc he))).1] at ht
    exact hw.topo v hlt e he t ht
  · have : v = h.nodes.length := by omega
    subst this
    rw [h4, List.mem_singleton] at he
    rw [he, app_tails h6, List.mem_singleton] at ht
    omega

end

/-- The result of a translation stands for the derivations. -/
structure Stands (g : Hypergraph (Val R)) (D : LTree (Val R) → Prop) : Prop where
  wf : WF g
  nonempty : 0 < g.nodes.length
  consistent : Consistent g
  lang : ∀ d, (∃ T, IsDeriv g g.goal T ∧ Shows g T d) ↔ ∃ d', d = .node .goal [d'] ∧ D d'

/-- The whole of the translator. -/
theorem translate_core {E : Env R} (hns : NoSites E.tf) {U : List (List Sym)} (hU : E.Within U) (hok : ∀ g, (E.gram g).Ok) {t : Frag} (ht : Tab true E.tf E.top 0 t) :
    ∃ N res, (∀ fuel, N ≤ fuel → translate E fuel = some res) ∧
      (res.isSome ↔ ∃ d, Deriv (Use E) 0 t d) ∧
      ∀ g, res = some g → Stands g (Deriv (Use E) 0 t) ∧
        (Distinct E → ∀ T T' d, IsDeriv g g.goal T → IsDeriv g g.goal T' → Shows g T d → Shows g T' d → T = T') := by
  by_cases hs0 : (start E).q = []
  · refine ⟨0, none, ?_, ?_, by simp⟩
    · intro fuel _
      unfold translate
      simp [hs0]
    · simp only [Option.isSome_none, Bool.false_eq_true, false_iff]
      rintro ⟨d, hd⟩
      cases hd with
      | @mk _ _ f r ss _ f1 f2 f3 f4 =>
        obtain ⟨g, hr⟩ := f2
        have : g ∈ live E := mem_live.2 ((hok g).start _ ((hok g).data _ (List.ne_nil_of_mem hr)))
        have : begins E (E.tf.length - 1) g ∈ (start E).q := List.mem_map.2 ⟨g, this, rfl⟩
        rw [hs0] at this
        simp at this
  have hs0' : (start E).q.isEmpty = false := by simpa using hs0
  have hrun := fun fuel (h : E.grams.length * (E.tf.length * U.length) < fuel) => mainLoop_inv hns hU fuel (qinv_start ⟨0, t, ht⟩) (finv_start E) (by simpa using h)
  obtain ⟨P, tags, m, hm, hq, hQ, hF⟩ := hrun (E.grams.length * (E.tf.length * U.length) + 1) (by omega)
  -- more fuel changes nothing
  have hmono : ∀ fuel m0 m', mainLoop E fuel m0 = some m' → ∀ fuel' ≥ fuel, mainLoop E fuel' m0 = some m' := by
    intro fuel
    induction fuel with
    | zero => intro m0 m' h; simp [mainLoop] at h
    | succ fuel ih =>
      intro m0 m' h fuel' hge
      obtain ⟨k, rfl⟩ : ∃ k, fuel' = k + 1 := ⟨fuel' - 1, by omega⟩
      rw [mainLoop] at h ⊢
      cases hq : m0.q with
      | nil => simpa only [hq] using h
      | cons s q =>
        simp only [hq] at h ⊢
        cases hst : stepOne E s ⟨m0.forest, m0.x2hg, m0.seen, q⟩ with
        | none => rw [hst] at h; simp at h
        | some m1 =>
          simp only [hst] at h ⊢
          exact ih m1 m' h k (by omega)
  have hrun := hmono _ _ _ hm
  obtain ⟨spec, hsh, hl, hsp⟩ := hF.spec
  have htried : Tried E P E.top := by
    intro g hg
    have := hQ.root g hg
    rwa [seen_eq hQ hq] at this
  have hlang := lang_deriv hok hQ hq hF hsp E.top 0 t ht htried
  have hx := hF.x2hg E.top
  by_cases htop : E.top ∈ tags
  · rw [if_pos htop] at hx
    generalize hv : tags.idxOf E.top = v at hx hlang
    have hvl : v < m.forest.nodes.length := by rw [hsh.len, hl, ← hv]; exact List.idxOf_lt_length_of_mem htop
    have hac : AcyclicFrom m.forest (fun _ => false) v := ⟨rankOf tags, fun w _ e he hp => forest_ranked hQ hq hF hsh hl hsp w e he hp⟩
    obtain ⟨h, f, pos, ⟨k, hk⟩, wf, hpos, _, _, _, _, hbij, hgp⟩ := C06_topological_sort m.forest hsh.inv.inRange (fun _ => false) v hvl hac
    have bij := hbij _ _ hgp
    obtain ⟨h', f', ⟨k', hk'⟩, wf', hpos', bij'⟩ := C07_prune_edges h wf hpos (fun _ => false) true
    have hav : ∀ T, Avoids (fun _ => false) T := fun T e _ => rfl
    have hcon : Consistent h := C06_tables_stay_consistent m.forest hsh.inv.inRange hsh.inv (fun _ => false) v hvl k h (hk k (Nat.le_refl _))
    have hshow : ∀ T d, IsDeriv m.forest v T → (Shows h (T.map f) d ↔ Shows m.forest T d) := by
      intro T t hT
      exact shows_map T t fun e he => (bij.payload T hT (hav T) e he).2.2
    have hshow' : ∀ T d, IsDeriv h h.goal T → (Shows h' (T.map f') d ↔ Shows h T d) := by
      intro T t hT
      exact shows_map T t fun e he => (bij'.payload T hT (hav T) e he).2.2
    have hD : ∀ d, (∃ T, IsDeriv h' h'.goal T ∧ Shows h' T d) ↔ Deriv (Use E) 0 t d := by
      intro d
      rw [← hlang d, ← hsh.lang v d]
      constructor
      · rintro ⟨T, h1, h2⟩
        obtain ⟨T', h3, _, rfl⟩ := bij'.bwd T h1
        obtain ⟨T'', h4, _, rfl⟩ := bij.bwd T' h3
        exact ⟨htop, T'', h4, (hshow _ _ h4).1 ((hshow' _ _ h3).1 h2)⟩
      · rintro ⟨_, T, h1, h2⟩
        have h3 := bij.fwd T h1 (hav T)
        exact ⟨_, bij'.fwd _ h3 (hav _), (hshow' _ _ h3).2 ((hshow _ _ h1).2 h2)⟩
    have hex : (∃ T, IsDeriv h h.goal T ∧ Avoids (fun _ => false) T) ↔ ∃ d, Deriv (Use E) 0 t d := by
      constructor
      · rintro ⟨T, hT, _⟩
        obtain ⟨T', h4, _, rfl⟩ := bij.bwd T hT
        obtain ⟨d, hd⟩ : ∃ d, Shows m.forest T' d := Parser.exists_shows (Cdec.HG.Inv.inRange hsh.inv) _ _ h4
        exact ⟨d, (hlang d).1 ⟨htop, (hsh.lang v d).1 ⟨T', h4, hd⟩⟩⟩
      · rintro ⟨d, hd⟩
        obtain ⟨T, h1, _⟩ := (hsh.lang v d).2 ((hlang d).2 hd).2
        exact ⟨_, bij.fwd T h1 (hav T), hav _⟩
    have hdead := C07_inside_check_leaves_no_dead_nodes h wf hpos (fun _ => false) k' h' (hk' k' (Nat.le_refl _))
    have hedges : h'.edges = [] ↔ ¬ ∃ d, Deriv (Use E) 0 t d := by
      constructor
      · rintro he ⟨d, hd⟩
        obtain ⟨T, hT, _⟩ := (hD d).2 hd
        cases hT with
        | mk he' _ _ =>
          have := wf'.edge_lt _ (by unfold Hypergraph.goal; omega) _ he'
          rw [he] at this
          simp at this
      · intro hne
        exact (hdead.2 (fun hh => hne (hex.1 hh))).2
    have hval : ∀ fuel, E.grams.length * (E.tf.length * U.length) + 1 + k + k' ≤ fuel → translate E fuel = some (if h'.edges.isEmpty then none else some (addGoal E h')) := by
      intro fuel hfu
      unfold translate
      simp only [hs0', Bool.false_eq_true, if_false, hrun fuel (by omega)]
      unfold Env.top at hx
      simp only [hx, hk fuel (by omega), hk' fuel (by omega)]
      by_cases he : h'.edges.isEmpty <;> simp [he]
    refine ⟨_, _, hval, ?_, ?_⟩
    · by_cases he : h'.edges = []
      · have := hedges.1 he
        simp [he, this]
      · have : ∃ d, Deriv (Use E) 0 t d := Classical.byContradiction fun hne => he (hedges.2 hne)
        simp [he, this]
    · intro g hg
      by_cases he : h'.edges = []
      · simp [he] at hg
      have hder : ∃ d, Deriv (Use E) 0 t d := Classical.byContradiction fun hne => he (hedges.2 hne)
      have hg : addGoal E h' = g := by simpa [he] using hg
      subst hg
      have hcon' : Consistent h' := C07_tables_stay_consistent h wf hpos hcon (fun _ => false) true k' h' (hk' k' (Nat.le_refl _)) (fun _ => hex.2 hder)
      have hgoal : (addGoal E h').goal = h'.nodes.length := by
        unfold Hypergraph.goal
        rw [(goal_spec hcon' hpos').2.1]
        rfl
      refine ⟨⟨goal_wf hcon' hpos' wf', by rw [(goal_spec hcon' hpos').2.1]; omega, (goal_spec hcon' hpos').1, ?_⟩, ?_⟩
      · intro d
        rw [hgoal]
        constructor
        · rintro ⟨T, h1, h2⟩
          obtain ⟨T', rfl, hT'⟩ := (goal_deriv hcon' hpos' T).1 h1
          obtain ⟨d', rfl, hd'⟩ := (goal_shows_iff hcon' hpos' hT' d).1 h2
          exact ⟨d', rfl, (hD d').1 ⟨T', hT', hd'⟩⟩
        · rintro ⟨d', rfl, hd'⟩
          obtain ⟨T', hT', h2⟩ := (hD d').2 hd'
          exact ⟨_, (goal_deriv hcon' hpos' _).2 ⟨T', rfl, hT'⟩, (goal_shows_iff hcon' hpos' hT' _).2 ⟨d', rfl, h2⟩⟩
      · intro hdist T U' d h1 h1' h2 h2'
        rw [hgoal] at h1 h1'
        obtain ⟨T1, rfl, hT1⟩ := (goal_deriv hcon' hpos' T).1 h1
        obtain ⟨T2, rfl, hT2⟩ := (goal_deriv hcon' hpos' U').1 h1'
        obtain ⟨d1, rfl, hd1⟩ := (goal_shows_iff hcon' hpos' hT1 d).1 h2
        obtain ⟨d2, e, hd2⟩ := (goal_shows_iff hcon' hpos' hT2 _).1 h2'
        cases e
        obtain ⟨A, a1, _, rfl⟩ := bij'.bwd T1 hT1
        obtain ⟨B, b1, _, rfl⟩ := bij'.bwd T2 hT2
        obtain ⟨A', a2, _, rfl⟩ := bij.bwd A a1
        obtain ⟨B', b2, _, rfl⟩ := bij.bwd B b1
        have := hsh.once (forest_once hQ hq hF hdist hl hsp) a2 b2 ((hshow _ _ a2).1 ((hshow' _ _ a1).1 hd1)) ((hshow _ _ b2).1 ((hshow' _ _ b1).1 hd2))
        rw [this]
  · rw [if_neg htop] at hx
    refine ⟨E.grams.length * (E.tf.length * U.length) + 1, none, ?_, ?_, by simp⟩
    · intro fuel hfu
      unfold translate
      simp only [hs0', Bool.false_eq_true, if_false, hrun fuel hfu]
      unfold Env.top at hx
      simp only [hx]
    · simp only [Option.isSome_none, Bool.false_eq_true, false_iff]
      rintro ⟨d, hd⟩
      exact htop ((hlang d).2 hd).1

end Cdec.Dec.T2S
