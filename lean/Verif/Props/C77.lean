import Verif.Props.C76
/-!
# C77: The lexical translator's forest holds exactly the word-by-word translations
-/
namespace Cdec.Dec
open Cdec.HG
open Cdec.Dec.Parser.Spec (LTree Shows)
variable {R : Type}

/-- The word at a source position; the null word counts only if it is switched on. -/
def LexEnv.srcWord (E : LexEnv R) : SrcPos → Option Int
  | none => if E.useNull then some E.nullWord else none
  | some j => E.src[j]?

/-- A target word may come from rule `r` at source position `j`. -/
def LexEnv.Allowed (E : LexEnv R) (j : SrcPos) (r : R) : Prop :=
  ∃ w rs, E.srcWord j = some w ∧ E.rules w = some rs ∧ r ∈ rs ∧ (E.alignOnly = true → E.trg r ∈ E.ref)

/-- The derivation of a choice of one source position and rule for each target position. -/
def lexTree (choice : List (SrcPos × R)) : Option (LTree (LexVal R)) :=
  (chainOf (fun _ => .binary) (choice.zipIdx.map fun x => .lex x.1.1 x.2 x.1.2)).map fun t => .node .goal [t]

theorem mem_sources (E : LexEnv R) (j : SrcPos) (w : Int) : (j, w) ∈ E.sources ↔ E.srcWord j = some w := by
  unfold LexEnv.sources LexEnv.srcWord
  rw [List.mem_append]
  cases j with
  | none =>
    by_cases h : E.useNull
    · simp [h]; exact eq_comm
    · simp [h]
  | some j =>
    by_cases h : E.useNull <;> simp [h, List.mem_zipIdx_iff_getElem?]

theorem mapM_some {A B : Type} (f : A → Option B) (l : List A) (g : A → B) (h : ∀ a ∈ l, f a = some (g a)) : l.mapM f = some (l.map g) := by
  induction l with
  | nil => rfl
  | cons a l ih =>
    rw [List.mapM_cons, h a (by simp), ih fun b hb => h b (by simp [hb])]
    rfl

theorem mapM_none {A B : Type} (f : A → Option B) (l : List A) : l.mapM f = none ↔ ∃ a ∈ l, f a = none := by
  induction l with
  | nil => simp
  | cons a l ih =>
    rw [List.mapM_cons]
    cases h : f a with
    | none => simp [h]
    | some b =>
      cases h2 : l.mapM f with
      | none =>
        obtain ⟨x, hx, hx'⟩ := ih.1 h2
        simp only [Option.bind_eq_bind, Option.bind_some, Option.bind_none, true_iff]
        exact ⟨x, by simp [hx], hx'⟩
      | some bs =>
        have : ¬ ∃ a ∈ l, f a = none := fun h => by rw [ih.2 h] at h2; cases h2
        simp only [Option.bind_eq_bind, Option.bind_some, Option.pure_def, reduceCtorEq, false_iff]
        rintro ⟨x, hx, hx'⟩
        rcases List.mem_cons.1 hx with rfl | hx
        · rw [h] at hx'; cases hx'
        · exact this ⟨x, hx, hx'⟩

/-- The leaves of a target position when every source word has rules. -/
def LexEnv.leavesD (E : LexEnv R) (i : Nat) : List (LexVal R) :=
  (E.sources.map fun x => (((E.rules x.2).getD []).filter fun r => !E.alignOnly || E.ref.contains (E.trg r)).map fun r => LexVal.lex x.1 i r).flatten

theorem leaves_eq (E : LexEnv R) (h : ∀ x ∈ E.sources, (E.rules x.2).isSome) (i : Nat) : E.leaves i = some (E.leavesD i) := by
  unfold LexEnv.leaves LexEnv.leavesD
  rw [mapM_some _ _ (fun x => (((E.rules x.2).getD []).filter fun r => !E.alignOnly || E.ref.contains (E.trg r)).map fun r => LexVal.lex x.1 i r)]
  · rfl
  · intro a ha
    obtain ⟨rs, hrs⟩ := Option.isSome_iff_exists.1 (h a ha)
    rw [hrs]; rfl

theorem mem_leavesD (E : LexEnv R) (i : Nat) (x : LexVal R) : x ∈ E.leavesD i ↔ ∃ c : SrcPos × R, x = .lex c.1 i c.2 ∧ E.Allowed c.1 c.2 := by
  unfold LexEnv.leavesD LexEnv.Allowed
  simp only [List.mem_flatten, List.mem_map]
  constructor
  · rintro ⟨_, ⟨⟨j, w⟩, hj, rfl⟩, hx⟩
    obtain ⟨r, hr, rfl⟩ := List.mem_map.1 hx
    rw [List.mem_filter] at hr
    rw [mem_sources] at hj
    cases h : E.rules w with
    | none => simp [h] at hr
    | some rs =>
      refine ⟨(j, r), rfl, w, rs, hj, h, by simpa [h] using hr.1, fun ha => ?_⟩
      have := hr.2
      rw [ha] at this
      simpa using this
  · rintro ⟨⟨j, r⟩, rfl, w, rs, h1, h2, h3, h4⟩
    refine ⟨_, ⟨(j, w), (mem_sources E j w).2 h1, rfl⟩, List.mem_map.2 ⟨r, List.mem_filter.2 ⟨by simp [h2, h3], ?_⟩, rfl⟩⟩
    cases ha : E.alignOnly with
    | false => rfl
    | true => simpa using h4 ha

theorem sources_nodup (E : LexEnv R) : (E.sources.map (·.1)).Nodup := by
  have h : (E.src.zipIdx.map fun x : Int × Nat => (some x.2 : SrcPos)).Nodup := by
    have : (E.src.zipIdx.map fun x : Int × Nat => (some x.2 : SrcPos)) = (E.src.zipIdx.map (·.2)).map some := by rw [List.map_map]; rfl
    rw [this]
    refine List.Nodup.map (Option.some_injective _) ?_
    rw [List.zipIdx_map_snd]
    exact List.nodup_range'
  unfold LexEnv.sources
  by_cases hu : E.useNull
  · simp only [hu, if_true, List.map_append, List.map_cons, List.map_nil, List.map_map, List.cons_append, List.nil_append, List.nodup_cons]
    exact ⟨by simp, h⟩
  · simp only [hu, Bool.false_eq_true, if_false, List.nil_append, List.map_map]
    exact h

theorem leavesD_nodup (E : LexEnv R) (hnd : ∀ w rs, E.rules w = some rs → rs.Nodup) (i : Nat) : (E.leavesD i).Nodup := by
  unfold LexEnv.leavesD
  have h := sources_nodup E
  generalize E.sources = l at h
  induction l with
  | nil => simp
  | cons x l ih =>
    rw [List.map_cons, List.nodup_cons] at h
    rw [List.map_cons, List.flatten_cons, List.nodup_append]
    refine ⟨?_, ih h.2, ?_⟩
    · refine List.Nodup.map (fun a b hab => by cases hab; rfl) (List.Nodup.filter _ ?_)
      cases hr : E.rules x.2 with
      | none => simp
      | some rs => exact hnd _ _ hr
    · intro a ha b hb hab
      subst hab
      obtain ⟨r, _, rfl⟩ := List.mem_map.1 ha
      obtain ⟨l', hl', hb'⟩ := List.mem_flatten.1 hb
      obtain ⟨y, hy, rfl⟩ := List.mem_map.1 hl'
      obtain ⟨r', _, e⟩ := List.mem_map.1 hb'
      simp only [LexVal.lex.injEq] at e
      exact h.1 (List.mem_map.2 ⟨y, hy, e.1⟩)

theorem lex_choice (E : LexEnv R) (n : Nat) (xs : List (LexVal R)) :
    List.Forall₂ (fun x l => x ∈ l) xs ((List.range n).map E.leavesD) ↔
      ∃ choice : List (SrcPos × R), choice.length = n ∧ (∀ c ∈ choice, E.Allowed c.1 c.2) ∧ xs = choice.zipIdx.map fun x => .lex x.1.1 x.2 x.1.2 := by
  induction n generalizing xs with
  | zero =>
    constructor
    · intro h; cases h; exact ⟨[], rfl, by simp, rfl⟩
    · rintro ⟨c, h, _, rfl⟩
      rw [List.length_eq_zero_iff.1 h]; exact .nil
  | succ n ih =>
    rw [List.range_succ, List.map_append]
    constructor
    · intro h
      obtain ⟨ys, zs, hy, hz, rfl⟩ : ∃ ys zs, List.Forall₂ (fun x l => x ∈ l) ys ((List.range n).map E.leavesD) ∧
          List.Forall₂ (fun x l => x ∈ l) zs _ ∧ xs = ys ++ zs :=
        ⟨_, _, List.forall₂_take_append _ _ _ h, List.forall₂_drop_append _ _ _ h, (List.take_append_drop _ _).symm⟩
      obtain ⟨ch, h1, h2, rfl⟩ := (ih ys).1 hy
      cases hz with
      | cons h3 h4 =>
        cases h4
        obtain ⟨c, rfl, hc⟩ := (mem_leavesD _ _ _).1 h3
        refine ⟨ch ++ [c], by simp [h1], ?_, ?_⟩
        · intro c' hc'
          rcases List.mem_append.1 hc' with h | h
          · exact h2 c' h
          · rw [List.mem_singleton.1 h]; exact hc
        · rw [List.zipIdx_append, List.map_append]
          simp [h1]
    · rintro ⟨ch', h1, h2, rfl⟩
      obtain ⟨ch, c, rfl⟩ : ∃ ch c, ch' = ch ++ [c] :=
        ⟨ch'.dropLast, ch'.getLast (by intro h; subst h; simp at h1), (List.dropLast_append_getLast _).symm⟩
      have hlen : ch.length = n := by simpa using h1
      rw [List.zipIdx_append, List.map_append]
      refine List.rel_append ((ih _).2 ⟨ch, hlen, fun t' ht' => h2 t' (by simp [ht']), rfl⟩) ?_
      simp only [List.zipIdx_singleton, List.map_cons, List.map_nil]
      refine .cons ((mem_leavesD _ _ _).2 ⟨c, ?_, h2 c (by simp)⟩) .nil
      simp [hlen]

theorem lex_core (E : LexEnv R) (hne : E.ref ≠ []) (hall : ∀ j w, E.srcWord j = some w → (E.rules w).isSome) : ∃ g spec, lexTrellis E = some (some g) ∧ Shape g spec ∧ WF g ∧ 0 < g.nodes.length ∧
    (∀ s, (∃ T, IsDeriv g g.goal T ∧ Shows g T s) ↔
      ∃ choice : List (SrcPos × R), choice.length = E.ref.length ∧ (∀ c ∈ choice, E.Allowed c.1 c.2) ∧ lexTree choice = some s) ∧
    ((∀ w rs, E.rules w = some rs → rs.Nodup) → ∀ v, ((spec.getD v []).map (·.2)).Nodup) := by
  have hall' : ∀ x ∈ E.sources, (E.rules x.2).isSome := fun x hx => hall x.1 x.2 ((mem_sources E x.1 x.2).1 hx)
  have hls : (List.range E.ref.length).mapM E.leaves = some ((List.range E.ref.length).map E.leavesD) :=
    mapM_some _ _ _ fun i _ => leaves_eq E hall' i
  unfold lexTrellis
  rw [hls]
  simp only []
  have e : ((List.range E.ref.length).map E.leavesD).foldl (fun s l => chainStep E.cat LexVal.binary l s) (none, empty) =
      chainLoop E.cat (fun _ => LexVal.binary) ((List.range E.ref.length).map E.leavesD) := by
    unfold chainLoop
    generalize (List.range E.ref.length).map E.leavesD = l
    conv_lhs => rw [← List.zipIdx_map_fst 0 l, List.foldl_map]
  have hne' : (List.range E.ref.length).map E.leavesD ≠ [] := by
    have := List.length_pos_iff.2 hne
    intro h
    have := congrArg List.length h
    simp at this
    exact hne this
  obtain ⟨spec, h⟩ := chain_inv E.cat (fun _ => LexVal.binary) ((List.range E.ref.length).map E.leavesD) hne'
  rw [e]
  obtain ⟨g, h1, h2, h3, _, h5, h6⟩ := h.shape.final h.topo h.ne E.goalCat .goal
  rw [h1]
  refine ⟨g, _, rfl, h2, h3, h5, ?_, ?_⟩
  · intro s
    rw [h6]
    constructor
    · rintro ⟨t, ht, rfl⟩
      obtain ⟨xs, hx, hc⟩ := (h.lang t).1 ht
      obtain ⟨ch, g1, g2, rfl⟩ := (lex_choice _ _ _).1 hx
      exact ⟨ch, g1, g2, by unfold lexTree; rw [hc]; rfl⟩
    · rintro ⟨ch, g1, g2, g3⟩
      unfold lexTree at g3
      obtain ⟨t, g4, rfl⟩ := Option.map_eq_some_iff.1 g3
      exact ⟨t, (h.lang t).2 ⟨_, (lex_choice _ _ _).2 ⟨ch, g1, g2, rfl⟩, g4⟩, rfl⟩
  · intro hnd v
    by_cases hv : v < spec.length
    · rw [getD_append_left' _ _ _ hv]
      obtain ⟨l, ⟨hl | ⟨k, rfl⟩, e2⟩ | e2⟩ := h.edges v
      · rw [e2]
        obtain ⟨l', hl', rfl⟩ := hl
        obtain ⟨i, _, rfl⟩ := List.mem_map.1 hl'
        exact leavesD_nodup E hnd i
      · rw [e2]; simp
      · rw [e2]; simp
    · by_cases hv2 : v = spec.length
      · subst hv2; simp
      · rw [List.getD_eq_getElem?_getD, List.getElem?_eq_none (by simp; omega)]; simp

/-- When every source word has rules the derivations are exactly those of the choices, for each word of the reference, of a source position (or the null word, if that is
used) and a rule for the word there; if only an alignment is wanted the rule must produce a word of the reference. -/
theorem C77_translations (E : LexEnv R) (hne : E.ref ≠ []) (hall : ∀ j w, E.srcWord j = some w → (E.rules w).isSome) : ∃ g, lexTrellis E = some (some g) ∧ WF g ∧ 0 < g.nodes.length ∧
    ∀ s, (∃ T, IsDeriv g g.goal T ∧ Shows g T s) ↔
      ∃ choice : List (SrcPos × R), choice.length = E.ref.length ∧ (∀ c ∈ choice, E.Allowed c.1 c.2) ∧ lexTree choice = some s := by
  obtain ⟨g, _, h1, _, h3, h4, h5, _⟩ := lex_core E hne hall
  exact ⟨g, h1, h3, h4, h5⟩

/-- The translator gives up exactly if some source word, or the null word when it is used, has no rules. -/
theorem C77_gives_up (E : LexEnv R) (hne : E.ref ≠ []) : lexTrellis E = some none ↔ ∃ j w, E.srcWord j = some w ∧ E.rules w = none := by
  constructor
  · intro h
    by_contra hc
    obtain ⟨g, _, h1, _⟩ := lex_core E hne fun j w hj => by
      cases hr : E.rules w with
      | none => exact absurd ⟨j, w, hj, hr⟩ hc
      | some rs => rfl
    rw [h1] at h
    cases h
  · rintro ⟨j, w, hj, hw⟩
    have h0 : ∀ i, E.leaves i = none := by
      intro i
      unfold LexEnv.leaves
      rw [(mapM_none _ _).2 ⟨(j, w), (mem_sources E j w).2 hj, by rw [hw]; rfl⟩]
      rfl
    have : (List.range E.ref.length).mapM E.leaves = none :=
      (mapM_none _ _).2 ⟨0, List.mem_range.2 (List.length_pos_iff.2 hne), h0 0⟩
    unfold lexTrellis
    rw [this]

/-- Different choices have different derivations, and if no word's rules list a rule twice, each choice has exactly one. -/
theorem C77_once (E : LexEnv R) (hne : E.ref ≠ []) (hall : ∀ j w, E.srcWord j = some w → (E.rules w).isSome) (hnd : ∀ w rs, E.rules w = some rs → rs.Nodup) :
    ∃ g, lexTrellis E = some (some g) ∧
    ∀ choice : List (SrcPos × R), choice.length = E.ref.length → (∀ c ∈ choice, E.Allowed c.1 c.2) → ∃! T, IsDeriv g g.goal T ∧ ∃ s, Shows g T s ∧ lexTree choice = some s := by
  obtain ⟨g, spec, h1, h2, h3, h4, h5, h6⟩ := lex_core E hne hall
  refine ⟨g, h1, ?_⟩
  intro ch hl hc
  obtain ⟨s, hs⟩ : ∃ s, lexTree ch = some s := by
    unfold lexTree
    cases ch with
    | nil => exact absurd (List.length_eq_zero_iff.1 hl.symm) hne
    | cons t tags => exact ⟨_, rfl⟩
  obtain ⟨T, hT, hsT⟩ := (h5 s).2 ⟨ch, hl, hc, hs⟩
  refine ⟨T, ⟨hT, s, hsT, hs⟩, ?_⟩
  rintro T' ⟨hT', s', hs', e⟩
  rw [hs] at e
  cases e
  exact h2.once (h6 hnd) hT' hT hs' hsT

theorem C77_distinct (c c' : List (SrcPos × R)) (h : c.length = c'.length) (s : LTree (LexVal R)) (hs : lexTree c = some s) (hs' : lexTree c' = some s) : c = c' := by
  unfold lexTree at hs hs'
  obtain ⟨t, g1, e1⟩ := Option.map_eq_some_iff.1 hs
  obtain ⟨t', g2, e2⟩ := Option.map_eq_some_iff.1 hs'
  rw [← e2] at e1
  simp only [LTree.node.injEq, List.cons.injEq, and_true, true_and] at e1
  subst e1
  have := chainOf_inj _ (by simp [h]) g1 g2
  refine List.ext_getElem (by omega) fun i i1 i2 => ?_
  have e3 := congrArg (fun l => l[i]?) this
  simp only [List.getElem?_map, List.getElem?_zipIdx] at e3
  rw [List.getElem?_eq_getElem i1, List.getElem?_eq_getElem i2] at e3
  simp at e3
  exact Prod.ext e3.1 e3.2

/-- On an empty reference the assertion fails. -/
theorem C77_empty_fails (E : LexEnv R) (h : E.ref = []) : lexTrellis E = none := by
  unfold lexTrellis
  rw [h]
  rfl

/-- Non-vacuity: two source words with two and one rules, the null word, and a reference of two words; rules are written as the words they produce. -/
def exampleLex : LexEnv Int where
  src := [1, 2]
  ref := [11, 12]
  useNull := true
  alignOnly := true
  nullWord := 9
  rules := fun w => if w = 1 then some [11, 13] else if w = 2 then some [12] else if w = 9 then some [] else none
  trg := id
  cat := 1
  goalCat := 2

example : exampleLex.ref ≠ [] ∧ exampleLex.Allowed (some 0) 11 ∧ ¬ exampleLex.Allowed (some 0) 13 := by
  refine ⟨by decide, ⟨1, [11, 13], rfl, rfl, by decide, by decide⟩, ?_⟩
  rintro ⟨w, rs, _, _, _, h⟩
  exact absurd (h rfl) (by decide)
example : ∀ j w, exampleLex.srcWord j = some w → (exampleLex.rules w).isSome := by
  intro j w h
  cases j with
  | none => cases h; rfl
  | some j =>
    match j, h with
    | 0, h => cases h; rfl
    | 1, h => cases h; rfl
    | j + 2, h => cases h
example : ∀ w rs, exampleLex.rules w = some rs → rs.Nodup := by
  intro w rs h
  simp only [exampleLex] at h
  split at h
  · cases h; decide
  · split at h
    · cases h; decide
    · split at h
      · cases h; decide
      · cases h

end Cdec.Dec
