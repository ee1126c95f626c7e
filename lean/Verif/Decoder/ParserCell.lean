import Verif.Decoder.ParserRows
import Verif.Decoder.ParserSpec
/-! One cell of the chart. -/
namespace Cdec.Dec.Parser
open Cdec.HG
variable {ι R φ : Type}

/-- Antecedents are nodes. -/
def AntsOk (s : State ι R φ) : Prop := ∀ gi a m, ∀ it ∈ s.act gi a m, ∀ v ∈ it.ants, v < s.psv.forest.nodes.length

/-- The jobs of the items of one grammar. -/
def gramJobs (act : Nat → Nat → Row ι φ) (i j : Nat) (x : Gram ι R × Nat) : List (Job R φ) :=
  if x.1.has i j then (act x.2 i j).flatMap (itemJobs x.1) else []

open Spec in
theorem walk_append (G : Gram ι R) (c : Int) : ∀ (α : List Int) (g : ι), walk G g (α ++ [c]) = (walk G g α).bind fun g' => G.extend g' c := by
  intro α
  induction α with
  | nil => intro g; simp [walk]
  | cons a α ih =>
    intro g
    simp only [List.cons_append, walk]
    cases G.extend g a with
    | none => rfl
    | some g' => simp [ih]

/-- A place of the trie of a grammar. -/
def Placed (G : Gram ι R) (g : ι) : Prop := ∃ α, Spec.walk G G.root α = some g

theorem Placed.extend {G : Gram ι R} {g g' : ι} {c : Int} (h : Placed G g) (e : G.extend g c = some g') : Placed G g' := by
  obtain ⟨α, hα⟩ := h
  exact ⟨α ++ [c], by rw [walk_append, hα]; exact e⟩

theorem nodeExts_placed {q : Passive R φ} {G : Gram ι R} {row : Row ι φ} (hr : ∀ m, ∀ it ∈ row m, Placed G it.g) {k m : Nat} : ∀ it ∈ nodeExts q G row k m, Placed G it.g := by
  intro it hit
  unfold nodeExts at hit
  obtain ⟨y, hy, hit⟩ := List.mem_flatMap.1 hit
  obtain ⟨w, hw, e⟩ := List.mem_filterMap.1 hit
  unfold extNode at e
  obtain ⟨n, hn, e⟩ := Option.map_eq_some_iff.1 e
  subst e
  exact (hr k y hy).extend hn

variable [Add φ]

theorem advance_congr {p : Env ι R φ} (hp : ∀ k (a : Arc φ), a ∈ p.lat.getD k [] → 0 < a.len) {q q' : Passive R φ} (G : Gram ι R) {i j : Nat} (hj : i < j) (row : Row ι φ)
    (h : PInv p q) (hg : Grow i j q q') : advance p q' G i j row = advance p q G i j row := by
  funext m
  rw [advance_eq hp _ _ _ _ (by omega), advance_eq hp _ _ _ _ (by omega)]
  congr 2
  split
  · rw [List.flatMap_def, List.flatMap_def]
    congr 1
    apply List.map_congr_left
    intro k hk
    have := List.mem_range'_1.1 hk
    exact nodeExts_congr (hg.chart k j (by omega)) (fun v hv => hg.cat v (h.lt k j v hv)) rfl
  · rfl

theorem advance_low {p : Env ι R φ} (hp : ∀ k (a : Arc φ), a ∈ p.lat.getD k [] → 0 < a.len) (q : Passive R φ) (G : Gram ι R) {i j : Nat} (hj : i < j) (row : Row ι φ)
    {m : Nat} (hm : m < j) : advance p q G i j row m = row m := by
  rw [advance_eq hp _ _ _ _ (by omega), if_neg (by omega), List.append_nil]
  have : arcExts p G row (j - 1) m = [] := by
    unfold arcExts
    rw [List.flatMap_eq_nil_iff]
    intro a ha
    have := hp (j - 1) a.1 (List.fst_mem_of_mem_zipIdx ha)
    rw [if_neg (by omega)]
  rw [this, List.append_nil]

theorem extendActive_low (q : Passive R φ) (G : Gram ι R) {i j : Nat} (row : Row ι φ) {m : Nat} (hm : m ≠ j) : extendActive q G row i j m = row m := by
  unfold extendActive Row.push
  rw [if_neg hm]

theorem nodeExts_ants {p : Env ι R φ} {q : Passive R φ} (h : PInv p q) {G : Gram ι R} {row : Row ι φ} (hr : ∀ m, ∀ it ∈ row m, ∀ v ∈ it.ants, v < q.forest.nodes.length)
    {k m : Nat} : ∀ it ∈ nodeExts q G row k m, ∀ v ∈ it.ants, v < q.forest.nodes.length := by
  intro it hit v hv
  unfold nodeExts at hit
  obtain ⟨y, hy, hit⟩ := List.mem_flatMap.1 hit
  obtain ⟨w, hw, e⟩ := List.mem_filterMap.1 hit
  unfold extNode at e
  obtain ⟨n, _, e⟩ := Option.map_eq_some_iff.1 e
  subst e
  simp only [List.mem_append, List.mem_singleton] at hv
  rcases hv with hv | rfl
  · exact hr k y hy v hv
  · exact h.lt k m v hw

theorem extTerm_ants {p : Env ι R φ} {G : Gram ι R} {k idx : Nat} {a : Arc φ} {it it' : Item ι φ} (h : extTerm p G k idx a it = some it') : it'.ants = it.ants := by
  unfold extTerm at h
  split at h
  · rw [← Option.some.inj h]
  · obtain ⟨n, _, e⟩ := Option.map_eq_some_iff.1 h
    rw [← e]

theorem arcExts_ants {p : Env ι R φ} {N : Nat} {G : Gram ι R} {row : Row ι φ} (hr : ∀ m, ∀ it ∈ row m, ∀ v ∈ it.ants, v < N)
    {k m : Nat} : ∀ it ∈ arcExts p G row k m, ∀ v ∈ it.ants, v < N := by
  intro it hit v hv
  unfold arcExts at hit
  obtain ⟨a, _, hit⟩ := List.mem_flatMap.1 hit
  split at hit
  · obtain ⟨y, hy, e⟩ := List.mem_filterMap.1 hit
    rw [extTerm_ants e] at hv
    exact hr k y hy v hv
  · simp at hit

theorem advance_ants {p : Env ι R φ} (hp : ∀ k (a : Arc φ), a ∈ p.lat.getD k [] → 0 < a.len) {q : Passive R φ} (h : PInv p q) {G : Gram ι R} {i j : Nat} (hj : i < j)
    {row : Row ι φ} (hr : ∀ m, ∀ it ∈ row m, ∀ v ∈ it.ants, v < q.forest.nodes.length) (m : Nat) :
    ∀ it ∈ advance p q G i j row m, ∀ v ∈ it.ants, v < q.forest.nodes.length := by
  intro it hit v hv
  rw [advance_eq hp _ _ _ _ (by omega)] at hit
  rcases List.mem_append.1 hit with hit | hit
  · rcases List.mem_append.1 hit with hit | hit
    · exact hr m it hit v hv
    · split at hit
      · obtain ⟨k, _, hit⟩ := List.mem_flatMap.1 hit
        exact nodeExts_ants h hr it hit v hv
      · simp at hit
  · exact arcExts_ants hr it hit v hv

theorem arcExts_placed {p : Env ι R φ} {G : Gram ι R} {row : Row ι φ} (hr : ∀ m, ∀ it ∈ row m, Placed G it.g) {k m : Nat} : ∀ it ∈ arcExts p G row k m, Placed G it.g := by
  intro it hit
  unfold arcExts at hit
  obtain ⟨a, _, hit⟩ := List.mem_flatMap.1 hit
  split at hit
  · obtain ⟨y, hy, e⟩ := List.mem_filterMap.1 hit
    unfold extTerm at e
    split at e
    · rw [← Option.some.inj e]
      exact hr k y hy
    · obtain ⟨n, hn, e⟩ := Option.map_eq_some_iff.1 e
      rw [← e]
      exact (hr k y hy).extend hn
  · simp at hit

theorem advance_placed {p : Env ι R φ} (hp : ∀ k (a : Arc φ), a ∈ p.lat.getD k [] → 0 < a.len) {q : Passive R φ} {G : Gram ι R} {i j : Nat} (hj : i < j)
    {row : Row ι φ} (hr : ∀ m, ∀ it ∈ row m, Placed G it.g) (m : Nat) : ∀ it ∈ advance p q G i j row m, Placed G it.g := by
  intro it hit
  rw [advance_eq hp _ _ _ _ (by omega)] at hit
  rcases List.mem_append.1 hit with hit | hit
  · rcases List.mem_append.1 hit with hit | hit
    · exact hr m it hit
    · split at hit
      · obtain ⟨k, _, hit⟩ := List.mem_flatMap.1 hit
        exact nodeExts_placed hr it hit
      · simp at hit
  · exact arcExts_placed hr it hit

theorem scanGrams_spec {p : Env ι R φ} (hp : ∀ k (a : Arc φ), a ∈ p.lat.getD k [] → 0 < a.len) {i j : Nat} (hj : i < j) (gs : List (Gram ι R × Nat)) :
    (gs.map Prod.snd).Nodup → ∀ (s : State ι R φ), (∀ x ∈ gs, ∀ it ∈ advance p s.psv x.1 i j (s.act x.2 i) j, ∀ r ∈ x.1.rules it.g, p.lhs r ≠ p.kGoal) → PInv p s.psv → AntsOk s →
    ∃ s', scanGrams p i j gs s = some s' ∧ Ran p i j (gs.flatMap (gramJobs s'.act i j)) s.psv s'.psv ∧
      (∀ x ∈ gs, x.1.has i j = true → s'.act x.2 i = advance p s.psv x.1 i j (s.act x.2 i)) ∧
      (∀ gi a, (a = i → ∀ x ∈ gs, x.2 = gi → x.1.has i j = false) → s'.act gi a = s.act gi a) ∧ AntsOk s' := by
  induction gs with
  | nil => intro _ s _ h ha; exact ⟨s, rfl, Ran.nil h, by simp, fun _ _ _ => rfl, ha⟩
  | cons x gs ih =>
    obtain ⟨G, gi⟩ := x
    intro hnd s hrl h ha
    have hnd' := List.nodup_cons.1 hnd
    unfold scanGrams
    by_cases hh : G.has i j = true
    · rw [if_pos hh]
      simp only []
      have hadv := advance_ants hp h (G := G) hj (row := s.act gi i) (fun m => ha gi i m)
      rw [applyItems_eq]
      obtain ⟨q1, e1, r1⟩ := applyAll_spec p i j ((advance p s.psv G i j (s.act gi i) j).flatMap (itemJobs G)) s.psv h (by
        intro b hb
        obtain ⟨it, hit, hb⟩ := List.mem_flatMap.1 hb
        unfold itemJobs at hb
        obtain ⟨r, hr, rfl⟩ := List.mem_map.1 hb
        exact ⟨hrl (G, gi) (by simp) it hit r hr, fun v hv => hadv j it hit v hv⟩)
      rw [e1]
      simp only []
      have hants : AntsOk ({ s.setRow gi i (advance p s.psv G i j (s.act gi i)) with psv := q1 } : State ι R φ) := by
        intro gi' a m it hit v hv
        refine Nat.lt_of_lt_of_le ?_ r1.grow.nodes
        simp only [State.setRow] at hit
        split at hit
        · exact hadv m it hit v hv
        · exact ha gi' a m it hit v hv
      obtain ⟨s', e', r', a1, a2, a3⟩ := ih hnd'.2 { s.setRow gi i (advance p s.psv G i j (s.act gi i)) with psv := q1 } (by
        intro x hx it hit
        simp only [State.setRow] at hit
        have hne : ¬ (x.2 = gi ∧ True) := fun e => hnd'.1 (List.mem_map.2 ⟨x, hx, e.1⟩)
        rw [if_neg hne, advance_congr hp x.1 hj _ h r1.grow] at hit
        exact hrl x (by simp [hx]) it hit) r1.inv hants
      refine ⟨s', e', ?_, ?_, ?_, a3⟩
      · rw [List.flatMap_cons]
        have : gramJobs s'.act i j (G, gi) = (advance p s.psv G i j (s.act gi i) j).flatMap (itemJobs G) := by
          unfold gramJobs
          rw [if_pos hh, a2 gi i (fun _ x hx e => absurd (List.mem_map.2 ⟨x, hx, e⟩) hnd'.1)]
          simp [State.setRow]
        rw [this]
        exact Ran.trans r1.inv r1 r'
      · intro x hx hxh
        rcases List.mem_cons.1 hx with rfl | hx
        · rw [a2 _ i (fun _ x hx e => absurd (List.mem_map.2 ⟨x, hx, e⟩) hnd'.1)]
          simp [State.setRow]
        · rw [a1 x hx hxh]
          simp only [State.setRow]
          have hne : ¬ (x.2 = gi ∧ True) := fun e => hnd'.1 (List.mem_map.2 ⟨x, hx, e.1⟩)
          rw [if_neg hne]
          exact advance_congr hp x.1 hj _ h r1.grow
      · intro gi' a hx
        rw [a2 gi' a (fun e x hx' => hx e x (by simp [hx']))]
        simp only [State.setRow]
        rw [if_neg]
        rintro ⟨rfl, rfl⟩
        have := hx rfl (G, gi') (by simp) rfl
        simp only [] at this
        rw [hh] at this
        simp at this
    · rw [if_neg hh]
      obtain ⟨s', e', r', a1, a2, a3⟩ := ih hnd'.2 s (fun x hx => hrl x (by simp [hx])) h ha
      refine ⟨s', e', ?_, ?_, ?_, a3⟩
      · rw [List.flatMap_cons]
        have : gramJobs s'.act i j (G, gi) = [] := by
          unfold gramJobs
          rw [if_neg hh]
        rw [this]
        exact r'
      · intro x hx hxh
        rcases List.mem_cons.1 hx with rfl | hx
        · exact absurd hxh hh
        · exact a1 x hx hxh
      · intro gi' a hx
        exact a2 gi' a (fun e x hx' => hx e x (by simp [hx']))

omit [Add φ] in
theorem finishGrams_spec (i j : Nat) (gs : List (Gram ι R × Nat)) : (gs.map Prod.snd).Nodup → ∀ (s : State ι R φ),
    (finishGrams i j gs s).psv = s.psv ∧
      (∀ x ∈ gs, x.1.has i j = true → (finishGrams i j gs s).act x.2 i = extendActive s.psv x.1 (s.act x.2 i) i j) ∧
      (∀ gi a, (a = i → ∀ x ∈ gs, x.2 = gi → x.1.has i j = false) → (finishGrams i j gs s).act gi a = s.act gi a) := by
  induction gs with
  | nil => intro _ s; exact ⟨rfl, by simp, fun _ _ _ => rfl⟩
  | cons x gs ih =>
    obtain ⟨G, gi⟩ := x
    intro hnd s
    have hnd' := List.nodup_cons.1 hnd
    have hun : finishGrams i j ((G, gi) :: gs) s = finishGrams i j gs (if G.has i j then s.setRow gi i (extendActive s.psv G (s.act gi i) i j) else s) := rfl
    rw [hun]
    by_cases hh : G.has i j = true
    · rw [if_pos hh]
      obtain ⟨b1, b2, b3⟩ := ih hnd'.2 (s.setRow gi i (extendActive s.psv G (s.act gi i) i j))
      refine ⟨b1, ?_, ?_⟩
      · intro x hx hxh
        rcases List.mem_cons.1 hx with rfl | hx
        · rw [b3 _ i (fun _ x hx e => absurd (List.mem_map.2 ⟨x, hx, e⟩) hnd'.1)]
          simp [State.setRow]
        · rw [b2 x hx hxh]
          have hne : ¬ (x.2 = gi ∧ True) := fun e => hnd'.1 (List.mem_map.2 ⟨x, hx, e.1⟩)
          simp only [State.setRow]
          rw [if_neg hne]
      · intro gi' a hx
        rw [b3 gi' a (fun e x hx' => hx e x (by simp [hx']))]
        simp only [State.setRow]
        rw [if_neg]
        rintro ⟨rfl, rfl⟩
        have := hx rfl (G, gi') (by simp) rfl
        simp only [] at this
        rw [hh] at this
        simp at this
    · rw [if_neg hh]
      obtain ⟨b1, b2, b3⟩ := ih hnd'.2 s
      refine ⟨b1, ?_, ?_⟩
      · intro x hx hxh
        rcases List.mem_cons.1 hx with rfl | hx
        · exact absurd hxh hh
        · exact b2 x hx hxh
      · intro gi' a hx
        exact b3 gi' a (fun e x hx' => hx e x (by simp [hx']))

/-- What the cell from `i` to `j` does. -/
theorem parseCell_spec [Zero φ] {p : Env ι R φ} (hp : ∀ k (a : Arc φ), a ∈ p.lat.getD k [] → 0 < a.len) 
    {u : List R} (hu : ∀ r ∈ u, p.lhs r ≠ p.kGoal) {i j : Nat} (hj : i < j) (s : State ι R φ)
    (hr : ∀ gi G, p.grams[gi]? = some G → ∀ it ∈ advance p s.psv G i j (s.act gi i) j, ∀ r ∈ G.rules it.g, p.lhs r ≠ p.kGoal) (h : PInv p s.psv) (ha : AntsOk s) :
    ∃ s' act1, parseCell p u i j s = some s' ∧ AntsOk s' ∧ Ran p i j (p.grams.zipIdx.flatMap (gramJobs act1 i j) ++ (s'.psv.chart i j).flatMap (unJobs p u s'.psv)) s.psv s'.psv ∧
      (∀ gi a, a ≠ i → s'.act gi a = s.act gi a) ∧
      (∀ gi G, p.grams[gi]? = some G → act1 gi i = (if G.has i j then advance p s.psv G i j (s.act gi i) else s.act gi i) ∧
        s'.act gi i = if G.has i j then extendActive s'.psv G (advance p s.psv G i j (s.act gi i)) i j else s.act gi i) := by
  have hnd : (p.grams.zipIdx.map Prod.snd).Nodup := by
    rw [List.zipIdx_map_snd]
    exact List.nodup_range'
  obtain ⟨s1, e1, r1, a1, a2, a3⟩ := scanGrams_spec hp hj p.grams.zipIdx hnd s (fun x hx => hr x.2 x.1 (List.mk_mem_zipIdx_iff_getElem?.1 hx)) h ha
  have r0 : Ran p i j (((s1.psv.chart i j).take 0).flatMap (unJobs p u s1.psv)) s1.psv s1.psv := Ran.nil r1.inv
  obtain ⟨q, e2, r2, n2⟩ := unaryLoop_spec p u i j hu s1.psv r1.inv ((s1.psv.chart i j).length + u.length + 1) 0 s1.psv r0 (Nat.zero_le _) (fun v hv => .inl hv) (by omega)
  obtain ⟨f1, f2, f3⟩ := finishGrams_spec i j p.grams.zipIdx hnd ({ s1 with psv := q } : State ι R φ)
  have hpsv : (finishGrams i j p.grams.zipIdx { s1 with psv := q }).psv = q := f1
  have hmem : ∀ gi G, p.grams[gi]? = some G → (G, gi) ∈ p.grams.zipIdx := by
    intro gi G hG
    exact List.mk_mem_zipIdx_iff_getElem?.2 hG
  have huniq : ∀ gi G, p.grams[gi]? = some G → ∀ x ∈ p.grams.zipIdx, x.2 = gi → x.1 = G := by
    intro gi G hG x hx e
    have := List.mk_mem_zipIdx_iff_getElem?.1 (show (x.1, x.2) ∈ _ from hx)
    rw [e, hG] at this
    exact (Option.some.inj this).symm
  have hact1 : ∀ gi G, p.grams[gi]? = some G → s1.act gi i = if G.has i j then advance p s.psv G i j (s.act gi i) else s.act gi i := by
    intro gi G hG
    by_cases hh : G.has i j = true
    · rw [if_pos hh]; exact a1 (G, gi) (hmem gi G hG) hh
    · rw [if_neg hh]
      exact a2 gi i (fun _ x hx e => by rw [huniq gi G hG x hx e]; simpa using hh)
  refine ⟨finishGrams i j p.grams.zipIdx { s1 with psv := q }, s1.act, ?_, ?_, ?_, ?_, ?_⟩
  · unfold parseCell
    rw [e1]
    simp only []
    rw [e2]
  · have hants1 : ∀ gi a m, ∀ it ∈ s1.act gi a m, ∀ v ∈ it.ants, v < q.forest.nodes.length := fun gi a m it hit v hv => Nat.lt_of_lt_of_le (a3 gi a m it hit v hv) r2.grow.nodes
    intro gi a m it hit v hv
    rw [hpsv]
    by_cases hx : a = i → ∀ x ∈ p.grams.zipIdx, x.2 = gi → x.1.has i j = false
    · rw [f3 gi a hx] at hit
      exact hants1 gi a m it hit v hv
    · simp only [not_forall] at hx
      obtain ⟨rfl, x, hx, rfl, hh⟩ := hx
      rw [f2 x hx (by simpa using hh)] at hit
      simp only [extendActive, Row.push] at hit
      split at hit
      · rcases List.mem_append.1 hit with hit | hit
        · exact hants1 _ _ _ it hit v hv
        · exact nodeExts_ants r2.inv (fun m => hants1 x.2 a m) it hit v hv
      · exact hants1 _ _ _ it hit v hv
  · rw [hpsv]
    exact Ran.trans r1.inv r1 r2
  · intro gi a hne
    rw [f3 gi a (fun e => absurd e hne)]
    exact a2 gi a (fun e => absurd e hne)
  · intro gi G hG
    refine ⟨hact1 gi G hG, ?_⟩
    by_cases hh : G.has i j = true
    · rw [if_pos hh, f2 (G, gi) (hmem gi G hG) hh, hpsv]
      simp only []
      rw [hact1 gi G hG, if_pos hh]
    · rw [if_neg hh, f3 gi i (fun _ x hx e => by rw [huniq gi G hG x hx e]; simpa using hh)]
      simp only []
      rw [hact1 gi G hG, if_neg hh]

end Cdec.Dec.Parser
