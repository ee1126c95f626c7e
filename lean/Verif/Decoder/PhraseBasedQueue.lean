import Verif.Decoder.PhraseBasedLemmas
import Mathlib.Data.List.Perm.Subperm
/-! The queue of the phrase-based translator. -/
namespace Cdec.Dec.PB
open Cdec.HG Spec
variable {R : Type}

/-- A sentence, a phrase table and a distortion limit. -/
structure Ctx (R : Type) where
  ws : List Int
  fst : Fst R
  dist : Nat
  catX : Int
  catGoal : Int

def Ctx.n (x : Ctx R) : Nat := x.ws.length
def Ctx.env (x : Ctx R) : Env R := ⟨textLattice x.ws, x.fst, x.dist, x.catX, x.catGoal⟩
/-- The translations of a span. -/
def Ctx.rules (x : Ctx R) (i j : Nat) : List R := x.fst.data (words x.ws i j)
/-- Nothing is covered. -/
def Ctx.none (x : Ctx R) : List Bool := List.replicate x.n false

/-- The name of a state: coverage and span. -/
abbrev Key := List Bool × Nat × Nat
def State.key (s : State) : Key := (s.cov.bits, s.i, s.j)
/-- The coverage after the span. -/
def out (k : Key) : List Bool := setBits k.1 k.2.1 k.2.2
def Ctx.hasData (x : Ctx R) (k : Key) : Bool := !(x.rules k.2.1 k.2.2).isEmpty

/-- A phrase may start at `i`. -/
def Start (x : Ctx R) (b : List Bool) (i : Nat) : Prop := ∃ g, IsGap b g ∧ i ≤ g + x.dist ∧ i < x.n ∧ bit b i = false

/-- What is true of the states. -/
structure SOk (x : Ctx R) (s : State) : Prop where
  len : s.cov.bits.length = x.n
  gap : IsGap s.cov.bits s.cov.gap
  ij : s.i ≤ s.j
  jn : s.j ≤ x.n
  start : Start x s.cov.bits s.i
  path : s.path = words x.ws s.i s.j
  has : x.fst.has s.path = true
  free : Free s.cov.bits s.i s.j

/-- Words to come: the sum of what is covered and what the span covers. -/
def mass (k : Key) : Nat := k.1.count true + (k.2.2 - k.2.1)

/-- The part of the queue at depth `L`. -/
def AtLevel (x : Ctx R) (L : Nat) (s : State) : Prop := if s.cov.bits = x.none then s.j - s.i = L else mass s.key + 1 ≤ L

/-- What is true of the queue `q`, the set `ucs` and the states `P` that have been taken from the queue. -/
structure QInv (x : Ctx R) (P : List Key) (q : List State) (ucs : List (List Bool)) : Prop where
  qok : ∀ s ∈ q, SOk x s
  pok : ∀ k ∈ P, ∃ s, SOk x s ∧ s.key = k
  nodup : (P ++ q.map State.key).Nodup
  seen : ∀ C, C ∈ ucs ↔ C = x.none ∨ ∃ k ∈ P, x.hasData k = true ∧ out k = C
  known : ∀ k ∈ P ++ q.map State.key, k.1 ∈ ucs
  starts : ∀ C ∈ ucs, ∀ i, Start x C i → (C, i, i) ∈ P ++ q.map State.key
  ext : ∀ b i j, (b, i, j) ∈ P → j < x.n → x.fst.has (words x.ws i (j + 1)) = true → bit b j = false → (b, i, j + 1) ∈ P ++ q.map State.key
  back : ∀ b i j, (b, i, j) ∈ P ++ q.map State.key → i < j → (b, i, j - 1) ∈ P
  level : ∃ A B L, q = A ++ B ∧ (∀ s ∈ A, AtLevel x L s) ∧ (∀ s ∈ B, AtLevel x (L + 1) s) ∧
    ∀ k ∈ P, if k.1 = x.none then k.2.2 - k.2.1 ≤ L else mass k + 1 ≤ L

variable {x : Ctx R}

theorem words_self (ws : List Int) (i : Nat) : words ws i i = [] := by simp [words]

theorem words_length (ws : List Int) (i j : Nat) (hj : j ≤ ws.length) : (words ws i j).length = j - i := by
  simp [words]; omega

theorem words_succ (ws : List Int) (i j : Nat) (hij : i ≤ j) (hj : j < ws.length) : words ws i (j + 1) = words ws i j ++ [ws[j]] := by
  unfold words
  rw [show j + 1 - i = (j - i) + 1 by omega, List.take_succ_eq_append_getElem (by simp; omega)]
  simp only [List.getElem_drop]
  congr 3
  omega

theorem words_zero (ws : List Int) (i j : Nat) (h : j ≤ i) : words ws i j = [] := by
  unfold words
  rw [show j - i = 0 by omega]; rfl

theorem hasData_lt (hf : Fst.Ok x.fst) {k : Key} (h : x.hasData k = true) : k.2.1 < k.2.2 := by
  by_contra hc
  unfold Ctx.hasData Ctx.rules at h
  rw [words_zero _ _ _ (by omega), hf.root.2] at h
  simp at h

theorem SOk.out_len {s : State} (h : SOk x s) : (out s.key).length = x.n := by
  unfold out State.key
  rw [setBits_length]; exact h.len

theorem SOk.mass_out {s : State} (h : SOk x s) : (out s.key).count true = mass s.key := by
  unfold out mass State.key
  exact count_setBits _ _ _ h.ij (by rw [h.len]; exact h.jn) h.free

theorem SOk.key_inj {s s' : State} (h : SOk x s) (h' : SOk x s') (he : s.key = s'.key) : s = s' := by
  obtain ⟨⟨b, g⟩, i, j, p⟩ := s
  obtain ⟨⟨b', g'⟩, i', j', p'⟩ := s'
  simp only [State.key, Prod.mk.injEq] at he
  obtain ⟨rfl, rfl, rfl⟩ := he
  have h1 := h.gap.unique h'.gap
  have h2 := h.path.trans h'.path.symm
  simp only at h1 h2
  rw [h1, h2]

theorem mass_pos_none (k : Key) (h : k.1 = x.none) : mass k = k.2.2 - k.2.1 := by
  unfold mass
  rw [h, Ctx.none]
  simp [List.count_replicate]

/-- One iteration, as far as the queue is concerned. -/
theorem QInv.step (hf : Fst.Ok x.fst) {P : List Key} {s : State} {q st ex : List State} {ucs ucs' : List (List Bool)} (h : QInv x P (s :: q) ucs)
    (hu : ∀ C, C ∈ ucs' ↔ C ∈ ucs ∨ (x.hasData s.key = true ∧ out s.key = C))
    (hst1 : ∀ t ∈ st, SOk x t ∧ t.key = (out s.key, t.i, t.i) ∧ x.hasData s.key = true ∧ out s.key ∉ ucs)
    (hst2 : (st.map State.key).Nodup)
    (hst3 : x.hasData s.key = true → out s.key ∉ ucs → ∀ i, Start x (out s.key) i → (out s.key, i, i) ∈ st.map State.key)
    (hex1 : ∀ t ∈ ex, SOk x t ∧ t.key = (s.cov.bits, s.i, s.j + 1))
    (hex2 : (ex.map State.key).Nodup)
    (hex3 : s.j < x.n → x.fst.has (words x.ws s.i (s.j + 1)) = true → bit s.cov.bits s.j = false → (s.cov.bits, s.i, s.j + 1) ∈ ex.map State.key) :
    QInv x (P ++ [s.key]) (q ++ st ++ ex) ucs' := by
  have hs := h.qok s (by simp)
  have hbu : s.cov.bits ∈ ucs := h.known s.key (by simp)
  have mem_old : ∀ k, k ∈ P ++ (s :: q).map State.key → k ∈ (P ++ [s.key]) ++ (q ++ st ++ ex).map State.key := by
    intro k hk
    simp only [List.map_cons, List.mem_append, List.mem_cons, List.map_append, List.not_mem_nil, or_false] at hk ⊢
    tauto
  have st_key : ∀ k ∈ st.map State.key, k.1 ∉ ucs := by
    intro k hk
    obtain ⟨t, ht, rfl⟩ := List.mem_map.1 hk
    obtain ⟨_, h2, _, h4⟩ := hst1 t ht
    rw [h2]; exact h4
  have ex_key : ∀ k ∈ ex.map State.key, k = (s.cov.bits, s.i, s.j + 1) := by
    intro k hk
    obtain ⟨t, ht, rfl⟩ := List.mem_map.1 hk
    exact (hex1 t ht).2
  have ex_new : (s.cov.bits, s.i, s.j + 1) ∉ P ++ (s :: q).map State.key := by
    intro hk
    have h1 := h.back _ _ _ hk (by have := hs.ij; omega)
    rw [Nat.add_sub_cancel] at h1
    have h2 := h.nodup
    rw [List.map_cons, List.nodup_append] at h2
    exact h2.2.2 _ h1 s.key (by simp) rfl
  constructor
  · intro t ht
    simp only [List.mem_append] at ht
    rcases ht with (ht | ht) | ht
    · exact h.qok t (by simp [ht])
    · exact (hst1 t ht).1
    · exact (hex1 t ht).1
  · intro k hk
    rcases List.mem_append.1 hk with hk | hk
    · exact h.pok k hk
    · rw [List.mem_singleton.1 hk]
      exact ⟨s, hs, rfl⟩
  · have e : (P ++ [s.key]) ++ (q ++ st ++ ex).map State.key = (P ++ (s :: q).map State.key) ++ (st.map State.key ++ ex.map State.key) := by simp
    rw [e, List.nodup_append]
    refine ⟨h.nodup, ?_, ?_⟩
    · rw [List.nodup_append]
      refine ⟨hst2, hex2, ?_⟩
      intro a ha b hb hab
      have := st_key a ha
      rw [hab, ex_key b hb] at this
      exact this hbu
    · intro a ha b hb hab
      subst hab
      rcases List.mem_append.1 hb with hb | hb
      · exact st_key a hb (h.known a ha)
      · rw [ex_key a hb] at ha
        exact ex_new ha
  · intro C
    rw [hu, h.seen]
    simp only [List.mem_append, List.mem_singleton]
    constructor
    · rintro ((h1 | ⟨k, h1, h2⟩) | h1)
      · exact .inl h1
      · exact .inr ⟨k, .inl h1, h2⟩
      · exact .inr ⟨s.key, .inr rfl, h1⟩
    · rintro (h1 | ⟨k, h1 | rfl, h2⟩)
      · exact .inl (.inl h1)
      · exact .inl (.inr ⟨k, h1, h2⟩)
      · exact .inr h2
  · intro k hk
    have : k ∈ P ++ (s :: q).map State.key ∨ k ∈ st.map State.key ∨ k ∈ ex.map State.key := by
      simp only [List.map_cons, List.mem_append, List.mem_cons, List.map_append, List.not_mem_nil, or_false] at hk ⊢
      tauto
    rcases this with hk | hk | hk
    · exact (hu _).2 (.inl (h.known k hk))
    · obtain ⟨t, ht, rfl⟩ := List.mem_map.1 hk
      obtain ⟨_, h2, h3, _⟩ := hst1 t ht
      rw [h2]
      exact (hu _).2 (.inr ⟨h3, rfl⟩)
    · rw [ex_key k hk]
      exact (hu _).2 (.inl hbu)
  · intro C hC i hi
    rcases (hu C).1 hC with hC | ⟨hd, rfl⟩
    · exact mem_old _ (h.starts C hC i hi)
    · by_cases ho : out s.key ∈ ucs
      · exact mem_old _ (h.starts _ ho i hi)
      · have := hst3 hd ho i hi
        simp only [List.mem_append, List.map_append]
        tauto
  · intro b i j hk hj hh hb
    rcases List.mem_append.1 hk with hk | hk
    · exact mem_old _ (h.ext b i j hk hj hh hb)
    · have hk := List.mem_singleton.1 hk
      simp only [State.key, Prod.mk.injEq] at hk
      obtain ⟨rfl, rfl, rfl⟩ := hk
      have := hex3 hj hh hb
      simp only [List.mem_append, List.map_append]
      tauto
  · intro b i j hk hij
    have : (b, i, j) ∈ P ++ (s :: q).map State.key ∨ (b, i, j) ∈ st.map State.key ∨ (b, i, j) ∈ ex.map State.key := by
      simp only [List.map_cons, List.mem_append, List.mem_cons, List.map_append, List.not_mem_nil, or_false] at hk ⊢
      tauto
    rcases this with hk | hk | hk
    · exact List.mem_append_left _ (h.back b i j hk hij)
    · obtain ⟨t, ht, e⟩ := List.mem_map.1 hk
      rw [(hst1 t ht).2.1] at e
      simp only [Prod.mk.injEq] at e
      omega
    · have e := ex_key _ hk
      simp only [Prod.mk.injEq] at e
      obtain ⟨rfl, rfl, rfl⟩ := e
      rw [Nat.add_sub_cancel]
      exact List.mem_append_right _ (by simp [State.key])
  · -- levels
    have shift : ∃ A B L, s :: q = (s :: A) ++ B ∧ (∀ t ∈ s :: A, AtLevel x L t) ∧ (∀ t ∈ B, AtLevel x (L + 1) t) ∧
        ∀ k ∈ P, if k.1 = x.none then k.2.2 - k.2.1 ≤ L else mass k + 1 ≤ L := by
      obtain ⟨A, B, L, e, h1, h2, h3⟩ := h.level
      cases A with
      | nil =>
        refine ⟨q, [], L + 1, by simp, ?_, by simp, ?_⟩
        · intro t ht
          rw [List.nil_append] at e
          exact h2 t (e ▸ ht)
        · intro k hk
          have := h3 k hk
          split at this <;> rename_i hh
          · rw [if_pos hh]; omega
          · rw [if_neg hh]; omega
      | cons a A =>
        rw [List.cons_append, List.cons.injEq] at e
        obtain ⟨rfl, e⟩ := e
        exact ⟨A, B, L, by rw [e]; rfl, h1, h2, h3⟩
    obtain ⟨A, B, L, e, h1, h2, h3⟩ := shift
    have e' : q = A ++ B := by simpa using e
    have hsl := h1 s (by simp)
    refine ⟨A, B ++ st ++ ex, L, by rw [e']; simp, fun t ht => h1 t (by simp [ht]), ?_, ?_⟩
    · intro t ht
      simp only [List.mem_append] at ht
      rcases ht with (ht | ht) | ht
      · exact h2 t ht
      · obtain ⟨t1, t2, t3, t4⟩ := hst1 t ht
        have hlt := hasData_lt hf t3
        have hne : t.cov.bits ≠ x.none := by
          have : t.cov.bits = out s.key := congrArg Prod.fst t2
          rw [this]
          exact setBits_ne_empty hlt (by show s.j ≤ s.cov.bits.length; rw [hs.len]; exact hs.jn)
        unfold AtLevel
        rw [if_neg hne, t2]
        have hm : mass (out s.key, t.i, t.i) = mass s.key := by
          rw [← hs.mass_out]; simp [mass]
        rw [hm]
        unfold AtLevel at hsl
        split at hsl <;> rename_i hh
        · rw [mass_pos_none (x := x) s.key hh]
          show s.j - s.i + 1 ≤ L + 1
          omega
        · omega
      · obtain ⟨t1, t2⟩ := hex1 t ht
        simp only [State.key, Prod.mk.injEq] at t2
        unfold AtLevel at hsl ⊢
        unfold mass State.key at hsl ⊢
        simp only at hsl ⊢
        rw [t2.1, t2.2.1, t2.2.2]
        have := hs.ij
        split at hsl <;> rename_i hh
        · rw [if_pos hh]; omega
        · rw [if_neg hh]; omega
    · intro k hk
      rcases List.mem_append.1 hk with hk | hk
      · exact h3 k hk
      · rw [List.mem_singleton.1 hk]
        unfold AtLevel at hsl
        split at hsl <;> rename_i hh
        · rw [if_pos (by exact hh)]
          exact Nat.le_of_eq hsl
        · rw [if_neg (by exact hh)]
          exact hsl

/-- The state at the front that starts a translation leads to a new coverage. -/
theorem QInv.fresh (hf : Fst.Ok x.fst) {P : List Key} {s : State} {q : List State} {ucs : List (List Bool)} (h : QInv x P (s :: q) ucs)
    (hb : s.cov.bits = x.none) (hd : x.hasData s.key = true) : ∀ k ∈ P, x.hasData k = true → out k ≠ out s.key := by
  intro k hk hkd he
  have hs := h.qok s (by simp)
  obtain ⟨t, ht, rfl⟩ := h.pok k hk
  have hmass : mass t.key = mass s.key := by rw [← ht.mass_out, ← hs.mass_out, he]
  obtain ⟨A, B, L, e, h1, h2, h3⟩ := h.level
  have hsl : L ≤ s.j - s.i := by
    cases A with
    | nil =>
      have := h2 s (by rw [← List.nil_append B, ← e]; simp)
      unfold AtLevel at this
      rw [if_pos hb] at this
      omega
    | cons a A =>
      rw [List.cons_append, List.cons.injEq] at e
      have := h1 s (by simp [e.1])
      unfold AtLevel at this
      rw [if_pos hb] at this
      omega
  have hm : mass s.key = s.j - s.i := mass_pos_none (x := x) s.key hb
  have h4 := h3 _ hk
  split at h4 <;> rename_i hh
  · have hh' : t.cov.bits = x.none := hh
    unfold out at he
    rw [hh, show s.key.1 = x.none from hb] at he
    obtain ⟨e1, e2⟩ := setBits_empty_inj (hasData_lt hf hkd) ht.jn (hasData_lt hf hd) hs.jn he
    have : t.key = s.key := by
      unfold State.key at e1 e2 ⊢
      simp only at e1 e2
      rw [hh', hb, e1, e2]
    have hnd := h.nodup
    rw [List.map_cons, List.nodup_append] at hnd
    exact hnd.2.2 _ hk s.key (by simp) this
  · omega

end Cdec.Dec.PB
