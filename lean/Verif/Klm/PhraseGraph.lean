import Verif.Klm.PhraseFilter
import Mathlib.Data.List.Basic
import Mathlib.Order.Nat
/-!
# The search in the graph of the phrase filter

For every graph whose arcs lead to vertices with greater numbers, and every priority queue.
-/
namespace Cdec.Klm.Phrase

/-- What is expected of a priority queue; `ok` is the heap property of its vector. -/
structure PQ.Valid (pq : PQ) (ok : (Nat → Nat) → List Nat → Prop) : Prop where
  nil : ∀ k, ok k []
  congr : ∀ k k' l, (∀ i ∈ l, k i = k' i) → ok k l → ok k' l
  front : ∀ k a l, ok k (a :: l) → ∀ b ∈ l, k a ≤ k b
  pop_perm : ∀ k a l, ok k (a :: l) → (pq.pop k (a :: l)).Perm l
  pop_ok : ∀ k a l, ok k (a :: l) → ok k (pq.pop k (a :: l))
  push_perm : ∀ k a l, ok k l → (pq.push k a l).Perm (a :: l)
  push_ok : ∀ k a l, ok k l → ok k (pq.push k a l)

/-- The sentence `x` is on every arc of some path that ends in the vertex. -/
inductive Reach (arcs : List Arc) (x : Nat) : Nat → Prop
  | start (a : Arc) (ha : a ∈ arcs) (hs : a.src = none) (hx : x ∈ a.sents) : Reach arcs x a.dst
  | step (a : Arc) (u : Nat) (ha : a ∈ arcs) (hs : a.src = some u) (hx : x ∈ a.sents) (hu : Reach arcs x u) :
      Reach arcs x a.dst

/-- `x` can come into a vertex over the arc. -/
def ArcOk (arcs : List Arc) (a : Arc) (x : Nat) : Prop :=
  x ∈ a.sents ∧ ∀ u, a.src = some u → Reach arcs x u

theorem reach_iff {arcs : List Arc} {v x : Nat} :
    Reach arcs x v ↔ ∃ a ∈ arcs, a.dst = v ∧ ArcOk arcs a x := by
  constructor
  · intro h
    cases h with
    | start a ha hs hx => exact ⟨a, ha, rfl, hx, fun u hu => by rw [hs] at hu; cases hu⟩
    | step a u ha hs hx hu => exact ⟨a, ha, rfl, hx, fun w hw => by rw [hs] at hw; cases hw; exact hu⟩
  · rintro ⟨a, ha, rfl, hx, hu⟩
    cases hs : a.src with
    | none => exact .start a ha hs hx
    | some u => exact .step a u ha hs hx (hu u hs)

/-- The graph: arcs lead to greater vertices, lists of sentences are sorted. -/
structure Graph (arcs : List Arc) : Prop where
  up : ∀ a ∈ arcs, ∀ u, a.src = some u → u < a.dst
  sorted : ∀ a ∈ arcs, a.sents.Pairwise (· < ·)

section
variable {pq : PQ} {ok : (Nat → Nat) → List Nat → Prop} {arcs : List Arc}

/-- Facts about one arc: the range is a suffix of the list, and only sentences below `lo` or without a
path were dropped. -/
def ArcInv (arcs : List Arc) (s : St) (lo i : Nat) (a : Arc) : Prop :=
  s.rem i <:+ a.sents ∧ ∀ x, lo ≤ x → ArcOk arcs a x → x ∈ s.rem i

/-- Facts about one vertex. -/
structure Local (ok : (Nat → Nat) → List Nat → Prop) (arcs : List Arc) (s : St) (lo v : Nat) : Prop where
  arc : ∀ i a, arcs[i]? = some a → a.dst = v → ArcInv arcs s lo i a
  nodup : (s.queue v).Nodup
  mem : ∀ i, i ∈ s.queue v ↔ ∃ a, arcs[i]? = some a ∧ a.dst = v ∧ s.rem i ≠ []
  heap : ok s.key (s.queue v)

/-- Nothing changes above `v`. -/
structure Frame (arcs : List Arc) (s s' : St) (v : Nat) : Prop where
  rem : ∀ i a, arcs[i]? = some a → v < a.dst → s'.rem i = s.rem i
  queue : ∀ w, v < w → s'.queue w = s.queue w
  cur : ∀ w, v < w → s'.cur w = s.cur w

theorem Frame.refl (s : St) (v : Nat) : Frame arcs s s v := ⟨fun _ _ _ _ => rfl, fun _ _ => rfl, fun _ _ => rfl⟩

theorem Frame.trans {s s' s'' : St} {v : Nat} (h : Frame arcs s s' v) (h' : Frame arcs s' s'' v) :
    Frame arcs s s'' v :=
  ⟨fun i a e hv => (h'.rem i a e hv).trans (h.rem i a e hv), fun w hw => (h'.queue w hw).trans (h.queue w hw),
    fun w hw => (h'.cur w hw).trans (h.cur w hw)⟩

theorem Frame.mono {s s' : St} {u v : Nat} (h : Frame arcs s s' u) (huv : u ≤ v) : Frame arcs s s' v :=
  ⟨fun i a e hv => h.rem i a e (Nat.lt_of_le_of_lt huv hv), fun w hw => h.queue w (Nat.lt_of_le_of_lt huv hw),
    fun w hw => h.cur w (Nat.lt_of_le_of_lt huv hw)⟩

theorem Local.congr (hpq : pq.Valid ok) {s s' : St} {lo v : Nat} (h : Local ok arcs s lo v)
    (hr : ∀ i a, arcs[i]? = some a → a.dst = v → s'.rem i = s.rem i) (hq : s'.queue v = s.queue v) :
    Local ok arcs s' lo v := by
  refine ⟨fun i a e hv => ?_, by rw [hq]; exact h.nodup, fun i => ?_, ?_⟩
  · unfold ArcInv; rw [hr i a e hv]; exact h.arc i a e hv
  · rw [hq, h.mem]
    constructor
    · rintro ⟨a, e, hv, hn⟩; exact ⟨a, e, hv, by rw [hr i a e hv]; exact hn⟩
    · rintro ⟨a, e, hv, hn⟩; exact ⟨a, e, hv, by rw [← hr i a e hv]; exact hn⟩
  · rw [hq]
    refine hpq.congr s.key _ _ (fun i hi => ?_) h.heap
    obtain ⟨a, e, hv, _⟩ := (h.mem i).mp hi
    unfold St.key; rw [hr i a e hv]

theorem ArcInv.mono {s : St} {lo lo' i : Nat} {a : Arc} (h : ArcInv arcs s lo i a) (hl : lo ≤ lo') :
    ArcInv arcs s lo' i a := ⟨h.1, fun x hx => h.2 x (Nat.le_trans hl hx)⟩

theorem Local.mono {s : St} {lo lo' v : Nat} (h : Local ok arcs s lo v) (hl : lo ≤ lo') : Local ok arcs s lo' v :=
  ⟨fun i a e hv => (h.arc i a e hv).mono hl, h.nodup, h.mem, h.heap⟩

/-- What `LowerBound` of a vertex leaves. -/
def Post (arcs : List Arc) (s : St) (v lo : Nat) : Prop :=
  (s.queue v = [] ∧ ∀ x, lo ≤ x → ¬ Reach arcs x v) ∨
  (s.queue v ≠ [] ∧ ((s.cur v = lo ∧ Reach arcs lo v) ∨
    (lo < s.cur v ∧ (∃ a ∈ arcs, s.cur v ∈ a.sents) ∧ ∀ x, lo ≤ x → x < s.cur v → ¬ Reach arcs x v)))

theorem lowerBound_suffix (l : List Nat) (lo : Nat) : lowerBound l lo <:+ l := List.dropWhile_suffix _

theorem mem_lowerBound {l : List Nat} (hl : l.Pairwise (· < ·)) {lo x : Nat} :
    x ∈ lowerBound l lo ↔ x ∈ l ∧ lo ≤ x := by
  induction l with
  | nil => simp [lowerBound]
  | cons a t ih =>
    have ih := ih hl.of_cons
    unfold lowerBound at *
    rw [List.dropWhile_cons]
    by_cases h : a < lo
    · simp only [h, decide_true, if_true, ih, List.mem_cons]
      constructor
      · rintro ⟨h1, h2⟩; exact ⟨Or.inr h1, h2⟩
      · rintro ⟨rfl | h1, h2⟩
        · omega
        · exact ⟨h1, h2⟩
    · simp only [h, decide_false, Bool.false_eq_true, if_false, List.mem_cons]
      constructor
      · rintro (rfl | h1)
        · exact ⟨Or.inl rfl, by omega⟩
        · have := List.rel_of_pairwise_cons hl h1; exact ⟨Or.inr h1, by omega⟩
      · exact fun h => h.1

/-- What `LowerBound` of an arc leaves. -/
theorem arcLB_spec (hpq : pq.Valid ok) (hg : Graph arcs) {vlb : St → Nat → Nat → Option St} {v i lo : Nat} {a : Arc}
    (he : arcs[i]? = some a) (hv : a.dst = v)
    (hvlb : ∀ (u : Nat) (s : St), u < v → (∀ w ≤ u, Local ok arcs s lo w) → ∃ s', vlb s u lo = some s' ∧
      (∀ w ≤ u, Local ok arcs s' lo w) ∧ Frame arcs s s' u ∧ Post arcs s' u lo)
    (s : St) (hl : ∀ w < v, Local ok arcs s lo w) (ha : ArcInv arcs s lo i a) :
    ∃ s', arcLB arcs vlb s i lo = some s' ∧ (∀ w < v, Local ok arcs s' lo w) ∧
      (∀ j b, arcs[j]? = some b → v ≤ b.dst → j ≠ i → s'.rem j = s.rem j) ∧
      (∀ w, v ≤ w → s'.queue w = s.queue w ∧ s'.cur w = s.cur w) ∧ ArcInv arcs s' lo i a ∧
      ∀ x t, s'.rem i = x :: t → lo ≤ x ∧ (x = lo → ArcOk arcs a lo) := by
  have ham : a ∈ arcs := List.mem_of_getElem? he
  have hsrt : (s.rem i).Pairwise (· < ·) := (hg.sorted a ham).sublist ha.1.sublist
  -- after the first line
  generalize hs1 : St.mk (setAt s.rem i (lowerBound (s.rem i) lo)) s.queue s.cur = s1
  have r1 : s1.rem i = lowerBound (s.rem i) lo := by rw [← hs1]; simp [setAt]
  have r2 : ∀ j, j ≠ i → s1.rem j = s.rem j := by intro j hj; rw [← hs1]; simp [setAt, hj]
  have q1 : s1.queue = s.queue := by rw [← hs1]
  have c1 : s1.cur = s.cur := by rw [← hs1]
  have hne : ∀ (w : Nat) (j : Nat) (b : Arc), arcs[j]? = some b → b.dst = w → w < v → j ≠ i := by
    rintro w j b hb hw hwv rfl
    rw [he] at hb; cases hb; omega
  have l1 : ∀ w < v, Local ok arcs s1 lo w := fun w hw =>
    (hl w hw).congr hpq (fun j b hb hbw => r2 j (hne w j b hb hbw hw)) (by rw [q1])
  have a1 : ArcInv arcs s1 lo i a := by
    refine ⟨?_, fun x hx hok => ?_⟩
    · rw [r1]; exact (lowerBound_suffix _ _).trans ha.1
    · rw [r1, mem_lowerBound hsrt]; exact ⟨ha.2 x hx hok, hx⟩
  have m1 : ∀ x ∈ s1.rem i, lo ≤ x := by
    intro x hx; rw [r1, mem_lowerBound hsrt] at hx; exact hx.2
  have early : (∀ x t, s1.rem i = x :: t → x = lo → ArcOk arcs a lo) → ∃ s', some s1 = some s' ∧ (∀ w < v, Local ok arcs s' lo w) ∧
      (∀ j b, arcs[j]? = some b → v ≤ b.dst → j ≠ i → s'.rem j = s.rem j) ∧
      (∀ w, v ≤ w → s'.queue w = s.queue w ∧ s'.cur w = s.cur w) ∧ ArcInv arcs s' lo i a ∧
      ∀ x t, s'.rem i = x :: t → lo ≤ x ∧ (x = lo → ArcOk arcs a lo) := by
    intro h
    exact ⟨s1, rfl, l1, fun j b _ _ hj => r2 j hj, fun w _ => ⟨by rw [q1], by rw [c1]⟩, a1,
      fun x t e => ⟨m1 x (by rw [e]; simp), h x t e⟩⟩
  unfold arcLB
  simp only [hs1, he]
  cases hsrc : a.src with
  | none =>
    simp only []
    refine early fun x t e hx => ⟨?_, fun u hu => by rw [hsrc] at hu; cases hu⟩
    subst hx
    exact a1.1.subset (by rw [e]; simp)
  | some u =>
    have huv : u < v := hv ▸ hg.up a ham u hsrc
    simp only []
    rw [show setAt s.rem i (lowerBound (s.rem i) lo) i = s1.rem i by rw [← hs1]]
    cases hrem : s1.rem i with
    | nil => exact early fun x t e => by rw [hrem] at e; cases e
    | cons x t =>
      have hx : lo ≤ x := m1 x (by rw [hrem]; simp)
      simp only []
      by_cases hgt : x > lo
      · rw [if_pos hgt]
        exact early fun y t' e => by rw [hrem] at e; cases e; omega
      · have hxe : x = lo := by omega
        subst hxe
        rw [if_neg (by omega), if_neg (by simp)]
        obtain ⟨s2, e2, l2, f2, p2⟩ := hvlb u s1 huv (fun w hw => l1 w (by omega))
        have r3 : s2.rem i = x :: t := by rw [f2.rem i a he (by omega), hrem]
        have l2' : ∀ w < v, Local ok arcs s2 x w := by
          intro w hw
          by_cases hwu : w ≤ u
          · exact l2 w hwu
          · exact (l1 w hw).congr hpq (fun j b hb hbw => f2.rem j b hb (by omega)) (f2.queue w (by omega))
        have f3 : ∀ j b, arcs[j]? = some b → v ≤ b.dst → j ≠ i → s2.rem j = s.rem j := by
          intro j b hb hbv hj
          rw [f2.rem j b hb (by omega), r2 j hj]
        have f4 : ∀ w, v ≤ w → s2.queue w = s.queue w ∧ s2.cur w = s.cur w := by
          intro w hw
          rw [f2.queue w (by omega), f2.cur w (by omega), q1, c1]; exact ⟨rfl, rfl⟩
        have a2 : ArcInv arcs s2 x i a := by unfold ArcInv; rw [r3, ← hrem]; exact a1
        have hsrt2 : (x :: t).Pairwise (· < ·) := by rw [← r3]; exact (hg.sorted a ham).sublist a2.1.sublist
        -- the range is replaced by another suffix
        have repl : ∀ l : List Nat, l <:+ x :: t → (∀ y, x ≤ y → ArcOk arcs a y → y ∈ l) → (∀ y ∈ l, x < y) →
            ∃ s', some (St.mk (setAt s2.rem i l) s2.queue s2.cur) = some s' ∧
              (∀ w < v, Local ok arcs s' x w) ∧
              (∀ j b, arcs[j]? = some b → v ≤ b.dst → j ≠ i → s'.rem j = s.rem j) ∧
              (∀ w, v ≤ w → s'.queue w = s.queue w ∧ s'.cur w = s.cur w) ∧ ArcInv arcs s' x i a ∧
              ∀ y t, s'.rem i = y :: t → x ≤ y ∧ (y = x → ArcOk arcs a x) := by
          intro l hl1 hl2 hl3
          refine ⟨_, rfl, fun w hw => (l2' w hw).congr hpq (fun j b hb hbw => ?_) rfl, fun j b hb hbv hj => ?_,
            f4, ⟨?_, ?_⟩, ?_⟩
          · simp only [setAt, if_neg (hne w j b hb hbw hw)]
          · simp only [setAt, if_neg hj]; exact f3 j b hb hbv hj
          · simp only [setAt, if_true]; rw [← r3] at hl1; exact hl1.trans a2.1
          · simp only [setAt, if_true]; exact hl2
          · simp only [setAt, if_true]
            intro y t' e
            have := hl3 y (by rw [e]; simp)
            exact ⟨by omega, by omega⟩
        rw [e2]
        simp only []
        rcases p2 with ⟨hq, hno⟩ | ⟨hq, ⟨hc, hr⟩ | ⟨hc, _, hno⟩⟩
        · rw [if_pos hq]
          exact repl [] (List.nil_suffix) (fun y hy hok => absurd (hok.2 u hsrc) (hno y hy)) (by simp)
        · rw [if_neg hq, if_neg (by omega), if_neg (by omega)]
          refine ⟨s2, rfl, l2', f3, f4, a2, fun y t' e => ?_⟩
          rw [r3] at e; cases e
          refine ⟨Nat.le_refl _, fun _ => ⟨a2.1.subset (by rw [r3]; simp), fun w hw => ?_⟩⟩
          rw [hsrc] at hw; cases hw; exact hr
        · rw [if_neg hq, if_neg (by omega), if_pos hc, r3]
          refine repl _ ((lowerBound_suffix _ _).trans (List.suffix_cons x t)) (fun y hy hok => ?_) (fun y hy => ?_)
          · have hry := hok.2 u hsrc
            have hcy : s2.cur u ≤ y := by
              by_contra hcon
              exact hno y hy (by omega) hry
            rw [mem_lowerBound (l := (x :: t).tail) hsrt2.of_cons]
            refine ⟨?_, hcy⟩
            have := a2.2 y hy hok
            rw [r3, List.mem_cons] at this
            rcases this with rfl | this
            · omega
            · exact this
          · have := (mem_lowerBound (l := (x :: t).tail) hsrt2.of_cons).mp hy
            omega

/-- The arcs in the queue that are not yet above `lo`. -/
def due (s : St) (v lo : Nat) : Nat := ((s.queue v).filter fun i => decide (s.key i ≤ lo)).length

theorem vertexLoop_spec (hpq : pq.Valid ok) (hg : Graph arcs) {vlb : St → Nat → Nat → Option St} {v lo : Nat}
    (hvlb : ∀ (u : Nat) (s : St), u < v → (∀ w ≤ u, Local ok arcs s lo w) → ∃ s', vlb s u lo = some s' ∧
      (∀ w ≤ u, Local ok arcs s' lo w) ∧ Frame arcs s s' u ∧ Post arcs s' u lo) :
    ∀ (n : Nat) (s : St), (∀ w ≤ v, Local ok arcs s lo w) → s.queue v ≠ [] → due s v lo < n →
      ∃ s', vertexLoop pq arcs vlb n s v lo = some s' ∧ (∀ w ≤ v, Local ok arcs s' lo w) ∧
        Frame arcs s s' v ∧ Post arcs s' v lo := by
  intro n
  induction n with
  | zero => intro s _ _ h; omega
  | succ n ih =>
    intro s hl hne hd
    have hlv := hl v (Nat.le_refl _)
    rw [vertexLoop]
    cases hq : s.queue v with
    | nil => exact absurd hq hne
    | cons top q =>
      have htop : top ∈ s.queue v := by rw [hq]; simp
      obtain ⟨a, he, hav, hrn⟩ := (hlv.mem top).mp htop
      have ham : a ∈ arcs := List.mem_of_getElem? he
      have hheap : ok s.key (top :: q) := by rw [← hq]; exact hlv.heap
      have hnd : (top :: q).Nodup := by rw [← hq]; exact hlv.nodup
      have hfront := hpq.front _ _ _ hheap
      simp only []
      cases hr : s.rem top with
      | nil => exact absurd hr hrn
      | cons x t =>
        have hkx : s.key top = x := by simp [St.key, hr]
        simp only []
        by_cases hx : x > lo
        · -- all arcs are above `lo`
          rw [if_pos hx]
          refine ⟨_, rfl, fun w hw => (hl w hw).congr hpq (fun _ _ _ _ => rfl) rfl,
            ⟨fun _ _ _ _ => rfl, fun _ _ => rfl, fun w hw => ?_⟩, ?_⟩
          · simp only [setAt]; rw [if_neg (by omega)]
          · right
            refine ⟨by simp only [hq]; simp, Or.inr ⟨by simp only [setAt, if_true]; exact hx, ⟨a, ham, ?_⟩, ?_⟩⟩
            · simp only [setAt, if_true]
              exact (hlv.arc top a he hav).1.subset (by rw [hr]; simp)
            · simp only [setAt, if_true]
              intro y hy1 hy2 hrch
              obtain ⟨b, hb, hbv, hbok⟩ := reach_iff.mp hrch
              obtain ⟨j, hj⟩ := List.mem_iff_getElem?.mp hb
              have hmem := (hlv.arc j b hj hbv).2 y hy1 hbok
              have hjq : j ∈ s.queue v := (hlv.mem j).mpr ⟨b, hj, hbv, fun h => by rw [h] at hmem; cases hmem⟩
              have hkj : s.key j ≤ y := by
                have hs : (s.rem j).Pairwise (· < ·) := (hg.sorted b hb).sublist (hlv.arc j b hj hbv).1.sublist
                unfold St.key
                cases hrj : s.rem j with
                | nil => rw [hrj] at hmem; cases hmem
                | cons z zs =>
                  rw [hrj] at hmem hs
                  simp only [List.headD_cons]
                  rcases List.mem_cons.mp hmem with rfl | hmem
                  · exact Nat.le_refl _
                  · exact Nat.le_of_lt (List.rel_of_pairwise_cons hs hmem)
              rw [hq] at hjq
              rcases List.mem_cons.mp hjq with rfl | hjq
              · omega
              · have := hfront j hjq; omega
        · rw [if_neg hx]
          -- after `pop`
          generalize hs1 : St.mk s.rem (setAt s.queue v (pq.pop s.key (top :: q))) s.cur = s1
          have q1 : s1.queue v = pq.pop s.key (top :: q) := by rw [← hs1]; simp [setAt]
          have q1' : ∀ w, w ≠ v → s1.queue w = s.queue w := by intro w hw; rw [← hs1]; simp [setAt, hw]
          have r1 : s1.rem = s.rem := by rw [← hs1]
          have c1 : s1.cur = s.cur := by rw [← hs1]
          have hpop : (s1.queue v).Perm q := by rw [q1]; exact hpq.pop_perm _ _ _ hheap
          have hpok : ok s.key (s1.queue v) := by rw [q1]; exact hpq.pop_ok _ _ _ hheap
          have htq : top ∉ q := (List.nodup_cons.mp hnd).1
          obtain ⟨s2, e2, l2, f2, g2, a2, p2⟩ := arcLB_spec hpq hg he hav hvlb s1
            (fun w hw => (hl w (by omega)).congr hpq (fun _ _ _ _ => by rw [r1]) (q1' w (by omega)))
            (by unfold ArcInv; rw [r1]; exact hlv.arc top a he hav)
          rw [e2]
          simp only []
          have hq2 : s2.queue v = s1.queue v := (g2 v (Nat.le_refl _)).1
          have hr2 : ∀ j b, arcs[j]? = some b → b.dst = v → j ≠ top → s2.rem j = s.rem j := by
            intro j b hb hbv hj; rw [f2 j b hb (by omega) hj, r1]
          have hqmem : ∀ j ∈ q, ∃ b, arcs[j]? = some b ∧ b.dst = v ∧ s.rem j ≠ [] := by
            intro j hj; exact (hlv.mem j).mp (by rw [hq]; simp [hj])
          have hkq : ∀ j ∈ q, s2.key j = s.key j := by
            intro j hj
            obtain ⟨b, hb, hbv, _⟩ := hqmem j hj
            unfold St.key; rw [hr2 j b hb hbv (fun h => htq (h ▸ hj))]
          have hok2 : ok s2.key (s2.queue v) := by
            rw [hq2]
            refine hpq.congr s.key _ _ (fun j hj => ?_) hpok
            exact (hkq j (hpop.mem_iff.mp hj)).symm
          have hperm2 : (s2.queue v).Perm q := by rw [hq2]; exact hpop
          have hmem2 : ∀ j, j ∈ s2.queue v ↔ j ≠ top ∧ ∃ b, arcs[j]? = some b ∧ b.dst = v ∧ s2.rem j ≠ [] := by
            intro j
            rw [hperm2.mem_iff]
            constructor
            · intro hj
              obtain ⟨b, hb, hbv, hbn⟩ := hqmem j hj
              have hjt : j ≠ top := fun h => htq (h ▸ hj)
              exact ⟨hjt, b, hb, hbv, by rw [hr2 j b hb hbv hjt]; exact hbn⟩
            · rintro ⟨hjt, b, hb, hbv, hbn⟩
              have : j ∈ s.queue v := (hlv.mem j).mpr ⟨b, hb, hbv, by rw [← hr2 j b hb hbv hjt]; exact hbn⟩
              rw [hq] at this
              rcases List.mem_cons.mp this with h | h
              · exact absurd h hjt
              · exact h
          have harc2 : ∀ i b, arcs[i]? = some b → b.dst = v → ArcInv arcs s2 lo i b := by
            intro j b hb hbv
            by_cases hjt : j = top
            · subst hjt; rw [he] at hb; cases hb; exact a2
            · unfold ArcInv; rw [hr2 j b hb hbv hjt]; exact hlv.arc j b hb hbv
          have hfr : Frame arcs s s2 v := by
            refine ⟨fun j b hb hbv => ?_, fun w hw => ?_, fun w hw => ?_⟩
            · rw [f2 j b hb (by omega) ?_, r1]
              rintro rfl
              rw [he] at hb; cases hb; omega
            · rw [(g2 w (by omega)).1, q1' w (by omega)]
            · rw [(g2 w (by omega)).2, c1]
          have hdue2 : ((s2.queue v).filter fun i => decide (s2.key i ≤ lo)).length + 1 = due s v lo := by
            unfold due
            have h1 : ((s2.queue v).filter fun i => decide (s2.key i ≤ lo)).length =
                (q.filter fun i => decide (s.key i ≤ lo)).length := by
              rw [(hperm2.filter _).length_eq]
              congr 1
              exact List.filter_congr fun j hj => by rw [hkq j hj]
            rw [h1, hq, List.filter_cons_of_pos (by simp only [hkx]; exact decide_eq_true (by omega))]
            rfl
          cases hr3 : s2.rem top with
          | nil =>
            simp only []
            have hloc : Local ok arcs s2 lo v := by
              refine ⟨harc2, hperm2.nodup_iff.mpr (List.nodup_cons.mp hnd).2, fun j => ?_, hok2⟩
              rw [hmem2]
              constructor
              · exact fun h => h.2
              · rintro ⟨b, hb, hbv, hbn⟩
                exact ⟨fun h => hbn (h ▸ hr3), b, hb, hbv, hbn⟩
            have hall : ∀ w ≤ v, Local ok arcs s2 lo w := by
              intro w hw
              by_cases h : w = v
              · subst h; exact hloc
              · exact l2 w (by omega)
            by_cases hqe : s2.queue v = []
            · rw [if_pos hqe]
              refine ⟨s2, rfl, hall, hfr, Or.inl ⟨hqe, fun y hy hrch => ?_⟩⟩
              obtain ⟨b, hb, hbv, hbok⟩ := reach_iff.mp hrch
              obtain ⟨j, hj⟩ := List.mem_iff_getElem?.mp hb
              have hm := (harc2 j b hj hbv).2 y hy hbok
              have : j ∈ s2.queue v := (hloc.mem j).mpr ⟨b, hj, hbv, fun h => by rw [h] at hm; cases hm⟩
              rw [hqe] at this; cases this
            · rw [if_neg hqe]
              obtain ⟨s', e', l', f', p'⟩ := ih s2 hall hqe (by unfold due; omega)
              exact ⟨s', e', l', hfr.trans f', p'⟩
          | cons y t' =>
            simp only []
            obtain ⟨hy1, hy2⟩ := p2 y t' hr3
            have hpp := hpq.push_perm s2.key top _ hok2
            have hpo := hpq.push_ok s2.key top _ hok2
            have hloc : Local ok arcs ⟨s2.rem, setAt s2.queue v (pq.push s2.key top (s2.queue v)), s2.cur⟩ lo v := by
              refine ⟨harc2, ?_, fun j => ?_, ?_⟩
              · simp only [setAt, if_true]
                rw [hpp.nodup_iff, List.nodup_cons]
                exact ⟨fun h => ((hmem2 top).mp h).1 rfl, hperm2.nodup_iff.mpr (List.nodup_cons.mp hnd).2⟩
              · simp only [setAt, if_true]
                rw [hpp.mem_iff, List.mem_cons, hmem2]
                constructor
                · rintro (rfl | h)
                  · exact ⟨a, he, hav, by rw [hr3]; simp⟩
                  · exact h.2
                · intro h
                  by_cases hjt : j = top
                  · exact Or.inl hjt
                  · exact Or.inr ⟨hjt, h⟩
              · simp only [setAt, if_true]; exact hpo
            have hall : ∀ w ≤ v, Local ok arcs ⟨s2.rem, setAt s2.queue v (pq.push s2.key top (s2.queue v)), s2.cur⟩ lo w := by
              intro w hw
              by_cases h : w = v
              · subst h; exact hloc
              · exact (l2 w (by omega)).congr hpq (fun _ _ _ _ => rfl) (by simp [setAt, h])
            have hfr' : Frame arcs s ⟨s2.rem, setAt s2.queue v (pq.push s2.key top (s2.queue v)), s2.cur⟩ v :=
              ⟨hfr.rem, fun w hw => by simp only [setAt]; rw [if_neg (by omega)]; exact hfr.queue w hw, hfr.cur⟩
            have hne' : pq.push s2.key top (s2.queue v) ≠ [] := by
              intro h; rw [h] at hpp; exact absurd hpp.length_eq (by simp)
            by_cases hyl : y = lo
            · rw [if_pos hyl]
              refine ⟨_, rfl, fun w hw => (hall w hw).congr hpq (fun _ _ _ _ => rfl) rfl,
                ⟨hfr'.rem, hfr'.queue, fun w hw => ?_⟩, Or.inr ⟨?_, Or.inl ⟨?_, ?_⟩⟩⟩
              · simp only [setAt]; rw [if_neg (by omega)]; exact hfr.cur w hw
              · simp only [setAt, if_true]; exact hne'
              · simp only [setAt, if_true]
              · exact reach_iff.mpr ⟨a, ham, hav, hy2 hyl⟩
            · rw [if_neg hyl]
              obtain ⟨s', e', l', f', p'⟩ := ih _ hall (by simp only [setAt, if_true]; exact hne') (by
                have hk : St.key ⟨s2.rem, setAt s2.queue v (pq.push s2.key top (s2.queue v)), s2.cur⟩ = s2.key := rfl
                unfold due
                simp only [hk, setAt, if_true]
                rw [(hpp.filter _).length_eq, List.filter_cons_of_neg ?_]
                · omega
                · have : s2.key top = y := by simp [St.key, hr3]
                  rw [this]; simp; omega)
              exact ⟨s', e', l', hfr'.trans f', p'⟩

/-- `Vertex::LowerBound`. -/
theorem vertexLB_spec (hpq : pq.Valid ok) (hg : Graph arcs) (lo : Nat) : ∀ (d v : Nat) (s : St), v < d →
    (∀ w ≤ v, Local ok arcs s lo w) → ∃ s', vertexLB pq arcs d s v lo = some s' ∧
      (∀ w ≤ v, Local ok arcs s' lo w) ∧ Frame arcs s s' v ∧ Post arcs s' v lo := by
  intro d
  induction d with
  | zero => intro v s h; omega
  | succ d ih =>
    intro v s hv hl
    rw [vertexLB]
    by_cases hq : s.queue v = []
    · rw [if_pos hq]
      refine ⟨s, rfl, hl, Frame.refl s v, Or.inl ⟨hq, fun y hy hrch => ?_⟩⟩
      obtain ⟨b, hb, hbv, hbok⟩ := reach_iff.mp hrch
      obtain ⟨j, hj⟩ := List.mem_iff_getElem?.mp hb
      have hlv := hl v (Nat.le_refl _)
      have hm := (hlv.arc j b hj hbv).2 y hy hbok
      have : j ∈ s.queue v := (hlv.mem j).mpr ⟨b, hj, hbv, fun h => by rw [h] at hm; cases hm⟩
      rw [hq] at this; cases this
    · rw [if_neg hq]
      refine vertexLoop_spec hpq hg (fun u s' hu hl' => ih u s' (by omega) hl') _ s hl hq ?_
      unfold due
      exact Nat.lt_succ_of_le (List.length_filter_le _ _)

/-- The arcs in `pre` are set up. -/
structure Setup (ok : (Nat → Nat) → List Nat → Prop) (pre : List Arc) (s : St) : Prop where
  rem : ∀ i a, pre[i]? = some a → s.rem i = a.sents
  nodup : ∀ v, (s.queue v).Nodup
  mem : ∀ v i, i ∈ s.queue v ↔ ∃ a, pre[i]? = some a ∧ a.dst = v ∧ a.sents ≠ []
  heap : ∀ v, ok s.key (s.queue v)

theorem setArc_setup (hpq : pq.Valid ok) {pre : List Arc} {s : St} (h : Setup ok pre s) (a : Arc) :
    Setup ok (pre ++ [a]) (setArc pq s pre.length a) := by
  have hget : ∀ (i : Nat) (b : Arc), (pre ++ [a])[i]? = some b ↔ pre[i]? = some b ∨ (i = pre.length ∧ b = a) := by
    intro i b
    by_cases hi : i < pre.length
    · rw [List.getElem?_append_left hi]
      constructor
      · exact Or.inl
      · rintro (h | ⟨h, _⟩)
        · exact h
        · omega
    · rw [List.getElem?_append_right (by omega), List.getElem?_eq_none (l := pre) (by omega)]
      by_cases he : i = pre.length
      · subst he; simp [eq_comm]
      · obtain ⟨k, hk⟩ : ∃ k, i - pre.length = k + 1 := ⟨i - pre.length - 1, by omega⟩
        rw [hk]; simp [he]
  have hnew : ∀ v, pre.length ∉ s.queue v := by
    intro v hm
    obtain ⟨b, hb, _⟩ := (h.mem v _).mp hm
    rw [List.getElem?_eq_none (Nat.le_refl _)] at hb; cases hb
  have hrem : ∀ i b, (pre ++ [a])[i]? = some b → setAt s.rem pre.length a.sents i = b.sents := by
    intro i b hb
    rcases (hget i b).mp hb with hb | ⟨rfl, rfl⟩
    · have : i ≠ pre.length := by
        have := (List.getElem?_eq_some_iff.mp hb).1; omega
      simp only [setAt, if_neg this]; exact h.rem i b hb
    · simp [setAt]
  have hkey : ∀ v, ∀ i ∈ s.queue v, s.key i = St.key ⟨setAt s.rem pre.length a.sents, s.queue, s.cur⟩ i := by
    intro v i hi
    have : i ≠ pre.length := fun e => hnew v (e ▸ hi)
    simp [St.key, setAt, this]
  have hheap : ∀ v, ok (St.key ⟨setAt s.rem pre.length a.sents, s.queue, s.cur⟩) (s.queue v) := fun v =>
    hpq.congr _ _ _ (hkey v) (h.heap v)
  unfold setArc
  by_cases he : a.sents = []
  · simp only [he, if_true]
    rw [he] at hrem hheap
    refine ⟨hrem, h.nodup, fun v i => ?_, hheap⟩
    rw [h.mem]
    constructor
    · rintro ⟨b, hb, hv, hn⟩; exact ⟨b, (hget i b).mpr (Or.inl hb), hv, hn⟩
    · rintro ⟨b, hb, hv, hn⟩
      rcases (hget i b).mp hb with hb | ⟨_, rfl⟩
      · exact ⟨b, hb, hv, hn⟩
      · exact absurd he hn
  · simp only [he, if_false]
    have hpp := hpq.push_perm _ pre.length _ (hheap a.dst)
    have hpo := hpq.push_ok _ pre.length _ (hheap a.dst)
    refine ⟨hrem, fun v => ?_, fun v i => ?_, fun v => ?_⟩
    · by_cases hv : v = a.dst
      · subst hv
        simp only [setAt, if_true]
        exact hpp.nodup_iff.mpr (List.nodup_cons.mpr ⟨hnew _, h.nodup _⟩)
      · simp only [setAt, if_neg hv]; exact h.nodup v
    · by_cases hv : v = a.dst
      · subst hv
        simp only [setAt, if_true]
        rw [hpp.mem_iff, List.mem_cons, h.mem]
        constructor
        · rintro (rfl | ⟨b, hb, hv, hn⟩)
          · exact ⟨a, (hget _ a).mpr (Or.inr ⟨rfl, rfl⟩), rfl, he⟩
          · exact ⟨b, (hget i b).mpr (Or.inl hb), hv, hn⟩
        · rintro ⟨b, hb, hv, hn⟩
          rcases (hget i b).mp hb with hb | ⟨rfl, _⟩
          · exact Or.inr ⟨b, hb, hv, hn⟩
          · exact Or.inl rfl
      · simp only [setAt, if_neg hv]
        rw [h.mem]
        constructor
        · rintro ⟨b, hb, hv, hn⟩; exact ⟨b, (hget i b).mpr (Or.inl hb), hv, hn⟩
        · rintro ⟨b, hb, hv', hn⟩
          rcases (hget i b).mp hb with hb | ⟨_, rfl⟩
          · exact ⟨b, hb, hv', hn⟩
          · exact absurd hv'.symm hv
    · by_cases hv : v = a.dst
      · subst hv
        simp only [setAt, if_true]; exact hpo
      · simp only [setAt, if_neg hv]; exact hheap v

theorem setArcs_setup (hpq : pq.Valid ok) : ∀ (rest pre : List Arc) (s : St), Setup ok pre s →
    Setup ok (pre ++ rest) (setArcs pq s pre.length rest)
  | [], pre, s, h => by simpa [setArcs] using h
  | a :: rest, pre, s, h => by
    have := setArcs_setup hpq rest (pre ++ [a]) _ (setArc_setup hpq h a)
    simpa [setArcs, List.append_assoc] using this

theorem makeGraph_local (hpq : pq.Valid ok) (arcs : List Arc) (v : Nat) : Local ok arcs (makeGraph pq arcs) 0 v := by
  have h : Setup ok arcs (makeGraph pq arcs) := by
    have := setArcs_setup hpq arcs [] ⟨fun _ => [], fun _ => [], fun _ => 0⟩
      ⟨by simp, by simp, by simp, fun _ => hpq.nil _⟩
    simpa [makeGraph] using this
  refine ⟨fun i a e _ => ⟨by rw [h.rem i a e]; exact List.suffix_refl _, fun x _ hok => by rw [h.rem i a e]; exact hok.1⟩,
    h.nodup v, fun i => ?_, h.heap v⟩
  rw [h.mem]
  constructor
  · rintro ⟨a, e, hv, hn⟩; exact ⟨a, e, hv, by rw [h.rem i a e]; exact hn⟩
  · rintro ⟨a, e, hv, hn⟩; exact ⟨a, e, hv, by rw [← h.rem i a e]; exact hn⟩

theorem reach_lt {N : Nat} (hN : ∀ a ∈ arcs, ∀ x ∈ a.sents, x < N) {v x : Nat} (h : Reach arcs x v) : x < N := by
  obtain ⟨a, ha, _, hx, _⟩ := reach_iff.mp h
  exact hN a ha x hx

/-- `Multiple::Evaluate`: the sentences with a path, in increasing order. -/
theorem multipleLoop_spec (hpq : pq.Valid ok) (hg : Graph arcs) {N : Nat} (hN : ∀ a ∈ arcs, ∀ x ∈ a.sents, x < N)
    (last : Nat) : ∀ (n : Nat) (s : St) (lo : Nat), N < n + lo → lo ≤ N → (∀ w ≤ last, Local ok arcs s lo w) →
      ∃ ks, multipleLoop pq arcs last n s lo = some ks ∧ ks.Pairwise (· < ·) ∧
        ∀ x, x ∈ ks ↔ lo ≤ x ∧ Reach arcs x last := by
  intro n
  induction n with
  | zero =>
    intro s lo h h' hl
    omega
  | succ n ih =>
    intro s lo h hlo hl
    rw [multipleLoop]
    obtain ⟨s', e, l', f', p'⟩ := vertexLB_spec hpq hg lo (last + 1) last s (by omega) hl
    rw [e]
    simp only []
    rcases p' with ⟨hq, hno⟩ | ⟨hq, ⟨hc, hr⟩ | ⟨hc, ⟨a, ha, hca⟩, hno⟩⟩
    · rw [if_pos hq]
      exact ⟨[], rfl, .nil, fun x => by simpa using hno x⟩
    · rw [if_neg hq, if_pos hc]
      obtain ⟨ks, h1, h2, h3⟩ := ih s' (lo + 1) (by omega) (reach_lt hN hr) (fun w hw => (l' w hw).mono (by omega))
      refine ⟨lo :: ks, by rw [h1]; rfl, List.pairwise_cons.mpr ⟨fun x hx => ((h3 x).mp hx).1, h2⟩, fun x => ?_⟩
      rw [List.mem_cons, h3]
      constructor
      · rintro (rfl | ⟨h, h'⟩)
        · exact ⟨Nat.le_refl _, hr⟩
        · exact ⟨by omega, h'⟩
      · rintro ⟨h, h'⟩
        by_cases hx : x = lo
        · exact Or.inl hx
        · exact Or.inr ⟨by omega, h'⟩
    · rw [if_neg hq, if_neg (by omega)]
      obtain ⟨ks, h1, h2, h3⟩ := ih s' (s'.cur last) (by omega) (Nat.le_of_lt (hN a ha _ hca)) (fun w hw => (l' w hw).mono (by omega))
      refine ⟨ks, h1, h2, fun x => ?_⟩
      rw [h3]
      constructor
      · rintro ⟨h, h'⟩; exact ⟨by omega, h'⟩
      · rintro ⟨h, h'⟩
        refine ⟨?_, h'⟩
        by_contra hcon
        exact hno x h (by omega) h'

/-- `Union::Evaluate`: whether there is a sentence with a path. -/
theorem unionLoop_spec (hpq : pq.Valid ok) (hg : Graph arcs) {N : Nat} (hN : ∀ a ∈ arcs, ∀ x ∈ a.sents, x < N)
    (last : Nat) : ∀ (n : Nat) (s : St) (lo : Nat), N < n + lo → lo ≤ N → (∀ w ≤ last, Local ok arcs s lo w) →
      ∃ b, unionLoop pq arcs last n s lo = some b ∧ (b = true ↔ ∃ x, lo ≤ x ∧ Reach arcs x last) := by
  intro n
  induction n with
  | zero => intro s lo h h' hl; omega
  | succ n ih =>
    intro s lo h hlo hl
    rw [unionLoop]
    obtain ⟨s', e, l', f', p'⟩ := vertexLB_spec hpq hg lo (last + 1) last s (by omega) hl
    rw [e]
    simp only []
    rcases p' with ⟨hq, hno⟩ | ⟨hq, ⟨hc, hr⟩ | ⟨hc, ⟨a, ha, hca⟩, hno⟩⟩
    · rw [if_pos hq]
      exact ⟨false, rfl, by simpa using hno⟩
    · rw [if_neg hq, if_pos hc]
      exact ⟨true, rfl, by simp; exact ⟨lo, Nat.le_refl _, hr⟩⟩
    · rw [if_neg hq, if_neg (by omega)]
      obtain ⟨b, h1, h2⟩ := ih s' (s'.cur last) (by omega) (Nat.le_of_lt (hN a ha _ hca)) (fun w hw => (l' w hw).mono (by omega))
      refine ⟨b, h1, h2.trans ?_⟩
      constructor
      · rintro ⟨x, h, h'⟩; exact ⟨x, by omega, h'⟩
      · rintro ⟨x, h, h'⟩
        refine ⟨x, ?_, h'⟩
        by_contra hcon
        exact hno x h (by omega) h'

end
end Cdec.Klm.Phrase
