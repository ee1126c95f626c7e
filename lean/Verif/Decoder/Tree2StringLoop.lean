import Verif.Decoder.Tree2StringIter
import Verif.Decoder.ForestShape
/-! The queue and the forest of the tree-to-string translator. -/
namespace Cdec.Dec.T2S
open Cdec.HG Spec
variable {R : Type}

/-- What tells states apart. -/
def PState.key (s : PState) : Nat × Nat × List Sym := (s.g, s.task, s.path)

/-- The state is where its path leads. -/
def Follows (tf : Table) (s : PState) : Prop := s.path.foldlM (istep tf) (.begin tf s.task, []) = some (s.it, s.future)

theorem Follows.ext {tf : Table} {a b : PState} (ha : Follows tf a) (hb : Follows tf b) (hk : a.key = b.key) : a = b := by
  obtain ⟨it, fu, ta, g, p⟩ := a
  obtain ⟨it', fu', ta', g', p'⟩ := b
  simp only [PState.key, Prod.mk.injEq] at hk
  obtain ⟨rfl, rfl, rfl⟩ := hk
  unfold Follows at ha hb
  simp only at ha hb
  rw [ha] at hb
  simp only [Option.some.injEq, Prod.mk.injEq] at hb
  obtain ⟨rfl, rfl⟩ := hb
  rfl

theorem same_iff {tf : Table} {a b : PState} (ha : Follows tf a) (hb : Follows tf b) : a.same b = true ↔ a = b := by
  constructor
  · intro h
    simp only [PState.same, Bool.and_eq_true, decide_eq_true_eq] at h
    exact ha.ext hb (by simp [PState.key, h])
  · rintro rfl
    simp [PState.same]

/-- The states of `L` have been pushed. -/
structure Pushed (m m' : Vars R) (L : List PState) (ext : List PState) : Prop where
  forest : m'.forest = m.forest
  x2hg : m'.x2hg = m.x2hg
  seen : m'.seen = m.seen ++ ext
  q : m'.q = m.q ++ ext
  sub : ∀ s ∈ ext, s ∈ L
  all : ∀ s ∈ L, s ∈ m'.seen
  nodup : (m.seen.map PState.key).Nodup → (m'.seen.map PState.key).Nodup

theorem Pushed.refl (m : Vars R) : Pushed m m [] [] := ⟨rfl, rfl, by simp, by simp, by simp, by simp, id⟩

theorem Pushed.trans {m1 m2 m3 : Vars R} {L L' e e' : List PState} (h : Pushed m1 m2 L e) (h' : Pushed m2 m3 L' e') : Pushed m1 m3 (L ++ L') (e ++ e') where
  forest := by rw [h'.forest, h.forest]
  x2hg := by rw [h'.x2hg, h.x2hg]
  seen := by rw [h'.seen, h.seen, List.append_assoc]
  q := by rw [h'.q, h.q, List.append_assoc]
  sub := by
    intro s hs
    rcases List.mem_append.1 hs with hs | hs
    · exact List.mem_append_left _ (h.sub s hs)
    · exact List.mem_append_right _ (h'.sub s hs)
  all := by
    intro s hs
    rcases List.mem_append.1 hs with hs | hs
    · rw [h'.seen]; exact List.mem_append_left _ (h.all s hs)
    · exact h'.all s hs
  nodup hn := h'.nodup (h.nodup hn)

theorem push_pushed {tf : Table} {s : PState} {m : Vars R} (hm : ∀ a ∈ m.seen, Follows tf a) (hs : Follows tf s) : ∃ e, Pushed m (push s m) [s] e := by
  unfold push
  split
  · rename_i h
    obtain ⟨a, ha, h⟩ := List.any_eq_true.1 h
    have := (same_iff hs (hm a ha)).1 h
    subst this
    exact ⟨[], rfl, rfl, by simp, by simp, by simp, by simpa using ha, id⟩
  · rename_i h
    refine ⟨[s], rfl, rfl, rfl, rfl, by simp, by simp, ?_⟩
    intro hn
    rw [List.map_append, List.nodup_append]
    refine ⟨hn, by simp, ?_⟩
    rintro a ha b hb rfl
    rw [List.map_singleton, List.mem_singleton] at hb
    obtain ⟨c, hc, e⟩ := List.mem_map.1 ha
    apply h
    rw [List.any_eq_true]
    refine ⟨c, hc, (same_iff hs (hm c hc)).2 (hs.ext (hm c hc) ?_)⟩
    rw [e, hb]

theorem pushes_pushed {tf : Table} (L : List PState) : ∀ {m : Vars R}, (∀ a ∈ m.seen, Follows tf a) → (∀ a ∈ L, Follows tf a) →
    ∃ e, Pushed m (L.foldl (fun m s => push s m) m) L e := by
  induction L with
  | nil => intro m _ _; exact ⟨[], .refl m⟩
  | cons s L ih =>
    intro m hm hL
    obtain ⟨e, he⟩ := push_pushed hm (hL s (by simp))
    rw [List.foldl_cons]
    obtain ⟨e', he'⟩ := ih (m := push s m) (by
      intro a ha
      rw [he.seen] at ha
      rcases List.mem_append.1 ha with ha | ha
      · exact hm a ha
      · exact hL a (List.mem_cons.2 (.inl (by simpa using he.sub a ha)))) (fun a ha => hL a (by simp [ha]))
    exact ⟨e ++ e', he.trans he'⟩

/-- The states that follow a state. -/
def nexts (E : Env R) (s : PState) : List PState :=
  let T := E.gram s.g
  if s.it.q = [] then (if T.data s.path = [] then [] else s.future.flatMap fun n => (live E).map (begins E n))
  else match s.it.sym with
    | .rhs c =>
      (if T.has (s.path ++ [.site c]) then [⟨incr E.tf s.it.truncate, s.future ++ [s.it.child], s.task, s.g, s.path ++ [.site c]⟩] else []) ++
      (if T.has (s.path ++ [.rhs c]) then [⟨incr E.tf s.it, s.future, s.task, s.g, s.path ++ [.rhs c]⟩] else [])
    | .site _ => []
    | y => if T.has (s.path ++ [y]) then [⟨incr E.tf s.it, s.future, s.task, s.g, s.path ++ [y]⟩] else []

/-- The state has finished a subtree for which there are rules. -/
def Complete (E : Env R) (s : PState) : Prop := s.it.q = [] ∧ (E.gram s.g).data s.path ≠ []

instance (E : Env R) (s : PState) : Decidable (Complete E s) :=
  decidable_of_iff (s.it.q.isEmpty = true ∧ ((E.gram s.g).data s.path).isEmpty = false) (by simp [Complete])

/-- The part of `useRules` that changes the forest. -/
def grow (E : Env R) (s : PState) (m : Vars R) : Vars R :=
  let m := nodeFor E s.task m
  let m := s.future.foldl (fun m n => nodeFor E n m) m
  let head := (m.x2hg s.task).getD 0
  let tails := s.future.map fun n => (m.x2hg n).getD 0
  let sp := (E.tf.at s.task).span
  ⟨((E.gram s.g).data s.path).foldl (fun f r => put f (.rule r sp.1 sp.2) tails head) m.forest, m.x2hg, m.seen, m.q⟩

theorem stepOne_eq (E : Env R) (s : PState) (m : Vars R) (hsite : s.it.q ≠ [] → ∀ c, s.it.sym ≠ .site c) :
    stepOne E s m = some ((nexts E s).foldl (fun m s => push s m) (if Complete E s then grow E s m else m)) := by
  unfold stepOne nexts
  by_cases hq : s.it.q = []
  · simp only [hq, List.isEmpty_nil, if_true]
    cases hd : (E.gram s.g).data s.path with
    | nil =>
      rw [if_neg (by simp [Complete, hd]), if_pos rfl]
      rfl
    | cons r rs =>
      rw [if_pos (by simp [Complete, hd, hq]), if_neg (by simp)]
      simp only [useRules, grow, hd, List.foldl_flatMap, List.foldl_map]
  · have hqe : s.it.q.isEmpty = false := by simpa using hq
    rw [if_neg (by rw [hqe]; simp), if_neg (c := Complete E s) (by simp [Complete, hq]), if_neg hq]
    cases hy : s.it.sym with
    | rhs c =>
      simp only
      by_cases h1 : (E.gram s.g).has (s.path ++ [.site c]) = true <;> by_cases h2 : (E.gram s.g).has (s.path ++ [.rhs c]) = true <;> simp [h1, h2]
    | site c => exact absurd hy (hsite hq c)
    | lhs c =>
      simp only
      by_cases h1 : (E.gram s.g).has (s.path ++ [.lhs c]) = true <;> simp [h1]
    | term c =>
      simp only
      by_cases h1 : (E.gram s.g).has (s.path ++ [.term c]) = true <;> simp [h1]

/-! ### The queue -/

/-- The node of the whole tree. -/
def Env.top (E : Env R) : Nat := E.tf.length - 1

/-- No sites in the input. -/
def NoSites (tf : Table) : Prop := ∀ p ∈ tf, ∀ c, RSym.site c ∉ p.rhs

theorem noSites_kid {tf : Table} (h : NoSites tf) (n : Nat) (c : String) : Item.child (.site c) ∉ kidItems tf n := by
  intro hm
  obtain ⟨x, hx, e⟩ := List.mem_map.1 hm
  cases e
  unfold Table.at at hx
  rw [List.getD_eq_getElem?_getD] at hx
  cases hp : tf[n]? with
  | none => rw [hp] at hx; simp [default] at hx
  | some p =>
    rw [hp] at hx
    exact h p (List.mem_of_getElem? hp) c hx

theorem step_clean {tf : Table} (h : NoSites tf) {l l' : List Item} {fs fs' : List Nat} {y : Sym} (hl : ∀ c, Item.child (.site c) ∉ l) (hs : step tf (l, fs) y = some (l', fs')) :
    ∀ c, Item.child (.site c) ∉ l' := by
  cases l with
  | nil => simp [step] at hs
  | cons x rest =>
    have hr : ∀ c, Item.child (.site c) ∉ rest := fun c hc => hl c (by simp [hc])
    cases x with
    | lhs c =>
      simp only [step] at hs
      split at hs
      · simp only [Option.some.injEq, Prod.mk.injEq] at hs
        rw [← hs.1]; exact hr
      · simp at hs
    | child r =>
      cases r with
      | term w =>
        simp only [step] at hs
        split at hs
        · simp only [Option.some.injEq, Prod.mk.injEq] at hs
          rw [← hs.1]; exact hr
        · simp at hs
      | site c => simp [step] at hs
      | node m =>
        simp only [step] at hs
        split at hs
        · simp only [Option.some.injEq, Prod.mk.injEq] at hs
          rw [← hs.1]
          intro c hc
          simp only [List.mem_cons, reduceCtorEq, List.mem_append, false_or] at hc
          rcases hc with hc | hc
          · exact noSites_kid h m c hc
          · exact hr c hc
        · split at hs
          · simp only [Option.some.injEq, Prod.mk.injEq] at hs
            rw [← hs.1]; exact hr
          · simp at hs

theorem fold_clean {tf : Table} (h : NoSites tf) (p : List Sym) : ∀ {l l' : List Item} {fs fs' : List Nat}, (∀ c, Item.child (.site c) ∉ l) → p.foldlM (step tf) (l, fs) = some (l', fs') →
    ∀ c, Item.child (.site c) ∉ l' := by
  induction p with
  | nil =>
    intro l l' fs fs' hl hs
    simp only [List.foldlM_nil, pure, Option.some.injEq, Prod.mk.injEq] at hs
    rw [← hs.1]; exact hl
  | cons y p ih =>
    intro l l' fs fs' hl hs
    rw [List.foldlM_cons] at hs
    cases h1 : step tf (l, fs) y with
    | none => rw [h1] at hs; simp at hs
    | some b =>
      rw [h1] at hs
      exact ih (step_clean h hl h1) hs

theorem Follows.noSite {tf : Table} (h : NoSites tf) {s : PState} (hs : Follows tf s) : s.it.q ≠ [] → ∀ c, s.it.sym ≠ .site c := by
  intro hq c hc
  have hb := both_fold s.path [] (rel_begin tf s.task)
  rw [hs] at hb
  cases h2 : s.path.foldlM (step tf) (.lhs (tf.at s.task).lhs :: kidItems tf s.task, []) with
  | none => rw [h2] at hb; exact hb.elim
  | some b =>
    rw [h2] at hb
    obtain ⟨l, fs⟩ := b
    obtain ⟨b1, b2⟩ := hb
    simp only at b1
    have hcl := fold_clean h s.path (by
      intro c hc
      simp only [List.mem_cons, reduceCtorEq, false_or] at hc
      exact noSites_kid h _ c hc) h2
    cases l with
    | nil => exact hq ((rel_nil b1).2 rfl)
    | cons x rest =>
      rw [(rel_sym b1).1] at hc
      cases x with
      | lhs d => simp [Item.sym] at hc
      | child r =>
        cases r with
        | term w => simp [Item.sym] at hc
        | node m => simp [Item.sym] at hc
        | site d => exact hcl d (by simp)

theorem Follows.ends {tf : Table} {s : PState} (hs : Follows tf s) (hq : s.it.q = []) : Ends tf s.task s.path s.future := ⟨s.it, hs, hq⟩

theorem begins_follows (E : Env R) (n g : Nat) : Follows E.tf (begins E n g) := rfl

theorem follows_snoc {tf : Table} {s : PState} (hs : Follows tf s) {y : Sym} {it : Iter} {fs : List Nat} (h : istep tf (s.it, s.future) y = some (it, fs)) :
    Follows tf ⟨it, fs, s.task, s.g, s.path ++ [y]⟩ := by
  unfold Follows at hs ⊢
  simp only
  rw [List.foldlM_append, hs]
  simp [h]

/-- What is true of the queue: `P` are the states that have been handled. -/
structure QInv (E : Env R) (P : List PState) (m : Vars R) : Prop where
  seen : m.seen = P ++ m.q
  nodup : (m.seen.map PState.key).Nodup
  fold : ∀ s ∈ m.seen, Follows E.tf s
  has : ∀ s ∈ m.seen, (E.gram s.g).has s.path = true
  tab : ∀ s ∈ m.seen, ∃ i t, Tab true E.tf s.task i t
  root : ∀ g ∈ live E, begins E E.top g ∈ m.seen
  next : ∀ s ∈ P, ∀ y it fs, (E.gram s.g).has (s.path ++ [y]) = true → istep E.tf (s.it, s.future) y = some (it, fs) → ⟨it, fs, s.task, s.g, s.path ++ [y]⟩ ∈ m.seen
  work : ∀ s ∈ P, Complete E s → ∀ n ∈ s.future, ∀ g ∈ live E, begins E n g ∈ m.seen

theorem mem_live {E : Env R} {g : Nat} : g ∈ live E ↔ (E.gram g).has [] = true := by
  unfold live
  rw [List.mem_filter, List.mem_range]
  constructor
  · exact fun h => h.2
  · intro h
    refine ⟨?_, h⟩
    rcases Nat.lt_or_ge g E.grams.length with hl | hl
    · exact hl
    · unfold Env.gram at h
      rw [List.getD_eq_getElem?_getD, List.getElem?_eq_none hl] at h
      simp [Trie.empty] at h

/-- What the pushed states are. -/
theorem nexts_ok {E : Env R} {s : PState} (hs : Follows E.tf s) (ht : ∃ i t, Tab true E.tf s.task i t) : ∀ a ∈ nexts E s,
    Follows E.tf a ∧ (E.gram a.g).has a.path = true ∧ ∃ i t, Tab true E.tf a.task i t := by
  intro a ha
  unfold nexts at ha
  by_cases hq : s.it.q = []
  · rw [if_pos hq] at ha
    split at ha
    · simp at ha
    · obtain ⟨n, hn, ha⟩ := List.mem_flatMap.1 ha
      obtain ⟨g, hg, rfl⟩ := List.mem_map.1 ha
      refine ⟨begins_follows E n g, mem_live.1 hg, ?_⟩
      obtain ⟨i, t, ht⟩ := ht
      obtain ⟨f, ss, _, _, h3, _, _⟩ := ends_cut ht (hs.ends hq)
      obtain ⟨k, hk, rfl⟩ := List.getElem_of_mem hn
      obtain ⟨hl, hg⟩ := List.forall₂_iff_get.1 h3
      have hx := hg k (by omega) (by omega)
      exact ⟨_, _, hx⟩
  · rw [if_neg hq] at ha
    have key : ∀ y it fs, istep E.tf (s.it, s.future) y = some (it, fs) → (E.gram s.g).has (s.path ++ [y]) = true → a = ⟨it, fs, s.task, s.g, s.path ++ [y]⟩ →
        Follows E.tf a ∧ (E.gram a.g).has a.path = true ∧ ∃ i t, Tab true E.tf a.task i t := by
      rintro y it fs h1 h2 rfl
      exact ⟨follows_snoc hs h1, h2, ht⟩
    cases hy : s.it.sym with
    | rhs c =>
      simp only [hy] at ha
      rcases List.mem_append.1 ha with ha | ha
      · split at ha
        · rename_i hh
          exact key (.site c) (incr E.tf s.it.truncate) (s.future ++ [s.it.child]) (by rw [istep, if_neg hq]; simp only [hy]; simp) hh (by simpa using ha)
        · simp at ha
      · split at ha
        · rename_i hh
          exact key (.rhs c) (incr E.tf s.it) s.future (by rw [istep, if_neg hq]; simp only [hy]; simp) hh (by simpa using ha)
        · simp at ha
    | site c => simp [hy] at ha
    | lhs c =>
      simp only [hy] at ha
      split at ha
      · rename_i hh
        exact key (.lhs c) (incr E.tf s.it) s.future (by rw [istep, if_neg hq]; simp only [hy]; simp) hh (by simpa using ha)
      · simp at ha
    | term c =>
      simp only [hy] at ha
      split at ha
      · rename_i hh
        exact key (.term c) (incr E.tf s.it) s.future (by rw [istep, if_neg hq]; simp only [hy]; simp) hh (by simpa using ha)
      · simp at ha

theorem nexts_all {E : Env R} {s : PState} {y : Sym} {it : Iter} {fs : List Nat} (hh : (E.gram s.g).has (s.path ++ [y]) = true)
    (hi : istep E.tf (s.it, s.future) y = some (it, fs)) : ⟨it, fs, s.task, s.g, s.path ++ [y]⟩ ∈ nexts E s := by
  unfold istep at hi
  unfold nexts
  split at hi
  · simp at hi
  · rename_i hq
    simp only at hq
    rw [if_neg hq]
    cases hy : s.it.sym with
    | rhs c =>
      simp only [hy] at hi ⊢
      split at hi
      · rename_i e
        subst e
        simp only [Option.some.injEq, Prod.mk.injEq] at hi
        obtain ⟨rfl, rfl⟩ := hi
        apply List.mem_append_right
        rw [if_pos hh]
        simp
      · split at hi
        · rename_i e
          subst e
          simp only [Option.some.injEq, Prod.mk.injEq] at hi
          obtain ⟨rfl, rfl⟩ := hi
          apply List.mem_append_left
          rw [if_pos hh]
          simp
        · simp at hi
    | site c => simp [hy] at hi
    | lhs c =>
      simp only [hy] at hi ⊢
      split at hi
      · rename_i e
        subst e
        simp only [Option.some.injEq, Prod.mk.injEq] at hi
        obtain ⟨rfl, rfl⟩ := hi
        rw [if_pos hh]
        simp
      · simp at hi
    | term c =>
      simp only [hy] at hi ⊢
      split at hi
      · rename_i e
        subst e
        simp only [Option.some.injEq, Prod.mk.injEq] at hi
        obtain ⟨rfl, rfl⟩ := hi
        rw [if_pos hh]
        simp
      · simp at hi

theorem nexts_work {E : Env R} {s : PState} (hc : Complete E s) {n g : Nat} (hn : n ∈ s.future) (hg : g ∈ live E) : begins E n g ∈ nexts E s := by
  unfold nexts
  rw [if_pos hc.1, if_neg hc.2]
  exact List.mem_flatMap.2 ⟨n, hn, List.mem_map.2 ⟨g, hg, rfl⟩⟩

/-- One iteration, the queue. -/
theorem QInv.step {E : Env R} {P : List PState} {m m0 m' : Vars R} {s : PState} {q ext : List PState} (h : QInv E P m) (hq : m.q = s :: q)
    (h0 : m0.seen = m.seen ∧ m0.q = q) (hp : Pushed m0 m' (nexts E s) ext) : QInv E (P ++ [s]) m' := by
  have hs : s ∈ m.seen := by rw [h.seen, hq]; simp
  have hok := nexts_ok (h.fold s hs) (h.tab s hs)
  have hsub : ∀ a ∈ m'.seen, a ∈ m.seen ∨ a ∈ nexts E s := by
    intro a ha
    rw [hp.seen, h0.1] at ha
    rcases List.mem_append.1 ha with ha | ha
    · exact .inl ha
    · exact .inr (hp.sub a ha)
  have hsup : ∀ a ∈ m.seen, a ∈ m'.seen := by
    intro a ha
    rw [hp.seen, h0.1]
    exact List.mem_append_left _ ha
  refine ⟨?_, ?_, ?_, ?_, ?_, ?_, ?_, ?_⟩
  · rw [hp.seen, hp.q, h0.1, h0.2, h.seen, hq]
    simp
  · exact hp.nodup (by rw [h0.1]; exact h.nodup)
  · intro a ha
    rcases hsub a ha with ha | ha
    · exact h.fold a ha
    · exact (hok a ha).1
  · intro a ha
    rcases hsub a ha with ha | ha
    · exact h.has a ha
    · exact (hok a ha).2.1
  · intro a ha
    rcases hsub a ha with ha | ha
    · exact h.tab a ha
    · exact (hok a ha).2.2
  · exact fun g hg => hsup _ (h.root g hg)
  · intro a ha y it fs hh hi
    rcases List.mem_append.1 ha with ha | ha
    · exact hsup _ (h.next a ha y it fs hh hi)
    · rw [List.mem_singleton.1 ha] at hh hi ⊢
      exact hp.all _ (nexts_all hh hi)
  · intro a ha hc n hn g hg
    rcases List.mem_append.1 ha with ha | ha
    · exact hsup _ (h.work a ha hc n hn g hg)
    · rw [List.mem_singleton.1 ha] at hc hn
      exact hp.all _ (nexts_work hc hn hg)

theorem qinv_start {E : Env R} (ht : ∃ i t, Tab true E.tf E.top i t) : QInv E [] (start E) := by
  refine ⟨by simp [start], ?_, ?_, ?_, ?_, ?_, by simp, by simp⟩
  · simp only [start, List.map_map]
    apply List.Nodup.map_on
    · intro a _ b _ e
      simpa [PState.key, begins] using e
    · unfold live
      exact List.Nodup.filter _ List.nodup_range
  · intro s hs
    obtain ⟨g, _, rfl⟩ := List.mem_map.1 hs
    exact begins_follows E _ g
  · intro s hs
    obtain ⟨g, hg, rfl⟩ := List.mem_map.1 hs
    exact mem_live.1 hg
  · intro s hs
    obtain ⟨g, hg, rfl⟩ := List.mem_map.1 hs
    exact ht
  · intro g hg
    exact List.mem_map.2 ⟨g, hg, rfl⟩

end Cdec.Dec.T2S
