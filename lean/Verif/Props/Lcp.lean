import Verif.Spec.Lcp
/-!
# C51: common ancestor search
-/
namespace Ripsrc
open Spec

/-- Head `i` has reached commit `c`. -/
def Marked (r : Reached) (c : Str) (i : Nat) : Prop := i ∈ GoMap.keys ((GoMap.get r c).getD [])

/-- The inner maps have no key twice. -/
def Reached.WF (r : Reached) : Prop := ∀ c, GoMap.WF ((GoMap.get r c).getD [])

theorem markReach_get (n : Nat) (r : Reached) (tr : Trace) (c : Str) :
    (GoMap.get (markReach n r tr).1 c).getD [] =
      if tr.commit = c then GoMap.set ((GoMap.get r c).getD []) tr.headInd true else (GoMap.get r c).getD [] := by
  unfold markReach
  have h0 : ∀ x, (GoMap.get (if GoMap.has r tr.commit then r else GoMap.set r tr.commit []) x).getD [] = (GoMap.get r x).getD [] := by
    intro x
    by_cases h : GoMap.has r tr.commit = true
    · rw [if_pos h]
    · rw [if_neg h, GoMap.get_set]
      by_cases hx : tr.commit = x
      · subst hx
        rw [if_pos rfl]
        have : GoMap.get r tr.commit = none := by
          cases hg : GoMap.get r tr.commit with
          | none => rfl
          | some v => simp [GoMap.has, hg] at h
        rw [this]; rfl
      · rw [if_neg hx]
  simp only
  rw [GoMap.get_set]
  by_cases hc : tr.commit = c
  · subst hc
    rw [if_pos rfl, if_pos rfl, Option.getD_some, h0]
  · rw [if_neg hc, if_neg hc, h0]

theorem markReach_marked (n : Nat) (r : Reached) (tr : Trace) (c : Str) (i : Nat) :
    Marked (markReach n r tr).1 c i ↔ Marked r c i ∨ (c = tr.commit ∧ i = tr.headInd) := by
  unfold Marked
  rw [markReach_get]
  by_cases hc : tr.commit = c
  · rw [if_pos hc, GoMap.mem_keys_set]
    constructor
    · rintro (h | h)
      · exact Or.inr ⟨hc.symm, h⟩
      · exact Or.inl h
    · rintro (h | h)
      · exact Or.inr h
      · exact Or.inl h.2
  · rw [if_neg hc]
    exact ⟨Or.inl, fun h => h.resolve_right (fun hh => hc hh.1.symm)⟩

theorem markReach_wf {n : Nat} {r : Reached} (h : r.WF) (tr : Trace) : Reached.WF (markReach n r tr).1 := by
  intro c
  rw [markReach_get]
  split
  · exact GoMap.wf_set (h c) _ _
  · exact h c

theorem length_keys {κ β : Type} (m : GoMap κ β) : (GoMap.keys m).length = m.length := by simp [GoMap.keys]

theorem full_iff {m : GoMap Nat Bool} {n : Nat} (hwf : GoMap.WF m) (hr : ∀ i ∈ GoMap.keys m, i < n) : m.length = n ↔ ∀ i, i < n → i ∈ GoMap.keys m := by
  constructor
  · intro hl i hi
    refine Classical.byContradiction (fun hn => ?_)
    have h1 : (i :: GoMap.keys m).Nodup := List.nodup_cons.2 ⟨hn, hwf⟩
    have h2 : ∀ x ∈ i :: GoMap.keys m, x ∈ List.range n := by
      intro x hx
      rcases List.mem_cons.1 hx with rfl | hx
      · exact List.mem_range.2 hi
      · exact List.mem_range.2 (hr x hx)
    have := h1.length_le_of_subset h2
    simp [length_keys] at this
    omega
  · intro h
    have h1 : (GoMap.keys m).length ≤ (List.range n).length := List.Nodup.length_le_of_subset hwf (fun x hx => List.mem_range.2 (hr x hx))
    have h2 : (List.range n).length ≤ (GoMap.keys m).length := List.Nodup.length_le_of_subset List.nodup_range (fun x hx => h x (List.mem_range.1 hx))
    simp [length_keys] at h1 h2
    omega

theorem markReach_done {n : Nat} {r : Reached} (h : r.WF) (hr : ∀ c i, Marked r c i → i < n) {tr : Trace} (ht : tr.headInd < n) :
    (markReach n r tr).2 = true ↔ ∀ i, i < n → Marked (markReach n r tr).1 tr.commit i := by
  have hg := markReach_get n r tr tr.commit
  rw [if_pos rfl] at hg
  have hw := markReach_wf (n := n) h tr tr.commit
  have hlt : ∀ i ∈ GoMap.keys ((GoMap.get (markReach n r tr).1 tr.commit).getD []), i < n := by
    intro i hi
    rcases (markReach_marked n r tr tr.commit i).1 hi with h | h
    · exact hr _ _ h
    · rw [h.2]; exact ht
  unfold Marked
  rw [← full_iff hw hlt]
  have : (markReach n r tr).2 = decide (((GoMap.get (markReach n r tr).1 tr.commit).getD []).length = n) := by
    unfold markReach
    simp only [GoMap.get_set_self, Option.getD_some]
  rw [this, decide_eq_true_iff]

/-- No commit has been reached from all heads. -/
def NotDone (n : Nat) (r : Reached) : Prop := ∀ c, ¬ ∀ i, i < n → Marked r c i

/-- The traces one level up. -/
def parentsTraces (g : GoMap Str (List Str)) (l : List Trace) : List Trace :=
  l.flatMap (fun tr => ((GoMap.get g tr.commit).getD []).map (fun p => { headInd := tr.headInd, commit := p }))

theorem lcpRound_spec (g : GoMap Str (List Str)) (n : Nat) (l : List Trace) : ∀ (r : Reached) (ntr : List Trace), r.WF → (∀ c i, Marked r c i → i < n) →
    (∀ tr ∈ l, tr.headInd < n) → NotDone n r →
    (∃ c, lcpRound g n r ntr l = .found c ∧ ∀ i, i < n → Marked r c i ∨ ⟨i, c⟩ ∈ l) ∨
    ∃ r', lcpRound g n r ntr l = .next r' (ntr ++ parentsTraces g l) ∧ r'.WF ∧ NotDone n r' ∧ (∀ c i, Marked r' c i ↔ Marked r c i ∨ ⟨i, c⟩ ∈ l) := by
  induction l with
  | nil =>
    intro r ntr hw _ _ hn
    exact Or.inr ⟨r, by simp [lcpRound, parentsTraces], hw, hn, fun c i => by simp⟩
  | cons tr l ih =>
    intro r ntr hw hr hl hn
    have ht := hl tr (by simp)
    have hm := markReach_marked n r tr
    have hd := markReach_done hw hr ht
    rw [lcpRound]
    simp only
    by_cases hdone : (markReach n r tr).2 = true
    · left
      rw [if_pos hdone]
      refine ⟨tr.commit, rfl, fun i hi => ?_⟩
      rcases (hm tr.commit i).1 (hd.1 hdone i hi) with h | ⟨_, h⟩
      · exact Or.inl h
      · right
        rw [h]
        simp
    · rw [if_neg hdone]
      have hn' : NotDone n (markReach n r tr).1 := by
        intro c hc
        by_cases hcc : c = tr.commit
        · subst hcc; exact hdone (hd.2 hc)
        · exact hn c (fun i hi => ((hm c i).1 (hc i hi)).resolve_right (fun h => hcc h.1))
      have hr' : ∀ c i, Marked (markReach n r tr).1 c i → i < n := by
        intro c i h
        rcases (hm c i).1 h with h | h
        · exact hr c i h
        · rw [h.2]; exact ht
      have hmem : ∀ c i, (Marked r c i ∨ (c = tr.commit ∧ i = tr.headInd)) ∨ (⟨i, c⟩ : Trace) ∈ l ↔ Marked r c i ∨ (⟨i, c⟩ : Trace) ∈ tr :: l := by
        intro c i
        rw [List.mem_cons, or_assoc]
        refine or_congr_right (or_congr_left ?_)
        constructor
        · rintro ⟨h1, h2⟩; rw [h1, h2]
        · intro h; rw [← h]; exact ⟨rfl, rfl⟩
      rcases ih (markReach n r tr).1 (ntr ++ ((GoMap.get g tr.commit).getD []).map (fun p => { headInd := tr.headInd, commit := p })) (markReach_wf hw tr) hr'
        (fun t ht => hl t (by simp [ht])) hn' with ⟨c, h1, h2⟩ | ⟨r', h1, h2, h3, h4⟩
      · left
        refine ⟨c, h1, fun i hi => (hmem c i).1 ?_⟩
        rcases h2 i hi with h | h
        · exact Or.inl ((hm c i).1 h)
        · exact Or.inr h
      · right
        refine ⟨r', ?_, h2, h3, fun c i => ?_⟩
        · rw [h1]
          simp [parentsTraces, List.flatMap_cons]
        · rw [h4, hm, hmem]

/-- State before round `k`. -/
structure RoundInv (g : GoMap Str (List Str)) (heads : List Str) (k : Nat) (r : Reached) (curr : List Trace) : Prop where
  wf : r.WF
  notDone : NotDone heads.length r
  marked : ∀ c i, Marked r c i ↔ ∃ h, heads[i]? = some h ∧ ∃ j, j < k ∧ StepsTo g j h c
  curr : ∀ i c, ⟨i, c⟩ ∈ curr ↔ ∃ h, heads[i]? = some h ∧ StepsTo g k h c

theorem lcpLoop_spec (g : GoMap Str (List Str)) (heads : List Str) : ∀ (rounds k : Nat) (r : Reached) (curr : List Trace),
    RoundInv g heads k r curr → ∀ out, lcpLoop g heads.length rounds r curr = some out →
    (∃ c kk, out = .ok c ∧ (∀ h ∈ heads, Within g kk h c) ∧ ∀ c' j, (∀ h ∈ heads, Within g j h c') → kk ≤ j) ∨
    (out = .error (.panic "all roots reached") ∧ ¬ ∃ c, ∀ h ∈ heads, AncestorOf g h c) ∨ heads = [] := by
  intro rounds
  induction rounds with
  | zero => intro k r curr _ out h; cases h
  | succ rounds ih =>
    intro k r curr inv out h
    by_cases hne : heads = []
    · exact Or.inr (Or.inr hne)
    have hlt : ∀ i h, heads[i]? = some h → i < heads.length := fun i h hi => (List.getElem?_eq_some_iff.1 hi).1
    have hidx : ∀ h ∈ heads, ∃ i, heads[i]? = some h := fun h hh => List.getElem?_of_mem hh
    have hsome : ∀ i, i < heads.length → heads[i]? = some (heads[i]?.getD []) := by
      intro i hi
      rw [List.getElem?_eq_getElem hi]; rfl
    rw [lcpLoop] at h
    rcases lcpRound_spec g heads.length curr r [] inv.wf (fun c i hm => by
        obtain ⟨hh, h1, _⟩ := (inv.marked c i).1 hm
        exact hlt i hh h1) (fun tr htr => by
        obtain ⟨hh, h1, _⟩ := (inv.curr tr.headInd tr.commit).1 htr
        exact hlt _ hh h1) inv.notDone with ⟨c, h1, h2⟩ | ⟨r', h1, h2, h3, h4⟩
    · rw [h1] at h
      simp only [Option.some.injEq] at h
      left
      refine ⟨c, k, h.symm, ?_, ?_⟩
      · intro hh hmem
        obtain ⟨i, hi⟩ := hidx hh hmem
        rcases h2 i (hlt i hh hi) with hm | hm
        · obtain ⟨h', h5, j, hj, hs⟩ := (inv.marked c i).1 hm
          rw [hi] at h5; injection h5 with h5; subst h5
          exact ⟨j, by omega, hs⟩
        · obtain ⟨h', h5, hs⟩ := (inv.curr i c).1 hm
          rw [hi] at h5; injection h5 with h5; subst h5
          exact ⟨k, Nat.le_refl _, hs⟩
      · intro c' j hall
        refine Classical.byContradiction (fun hlt' => ?_)
        refine inv.notDone c' (fun i hi => ?_)
        obtain ⟨j', hj', hs⟩ := hall (heads[i]?.getD []) (by rw [List.getElem?_eq_getElem hi]; exact List.getElem_mem hi)
        exact (inv.marked c' i).2 ⟨_, hsome i hi, j', by omega, hs⟩
    · rw [h1] at h
      simp only [List.nil_append] at h
      have hmk : ∀ c i, Marked r' c i ↔ ∃ h, heads[i]? = some h ∧ ∃ j, j < k + 1 ∧ StepsTo g j h c := by
        intro c i
        rw [h4, inv.marked, inv.curr]
        constructor
        · rintro (⟨hh, a, j, b, d⟩ | ⟨hh, a, d⟩)
          · exact ⟨hh, a, j, by omega, d⟩
          · exact ⟨hh, a, k, by omega, d⟩
        · rintro ⟨hh, a, j, b, d⟩
          by_cases hj : j < k
          · exact Or.inl ⟨hh, a, j, hj, d⟩
          · have : j = k := by omega
            subst this
            exact Or.inr ⟨hh, a, d⟩
      have hcur : ∀ i c, ⟨i, c⟩ ∈ parentsTraces g curr ↔ ∃ h, heads[i]? = some h ∧ StepsTo g (k + 1) h c := by
        intro i c
        unfold parentsTraces
        rw [List.mem_flatMap]
        constructor
        · rintro ⟨tr, htr, hm⟩
          obtain ⟨p, hp, he⟩ := List.mem_map.1 hm
          obtain ⟨hh, a, b⟩ := (inv.curr tr.headInd tr.commit).1 htr
          injection he with e1 e2
          subst e1; subst e2
          exact ⟨hh, a, .succ b hp⟩
        · rintro ⟨hh, a, b⟩
          cases b with
          | succ b hp => exact ⟨⟨i, _⟩, (inv.curr i _).2 ⟨hh, a, b⟩, List.mem_map.2 ⟨c, hp, rfl⟩⟩
      by_cases hz : (parentsTraces g curr).length = 0
      · rw [if_pos hz] at h
        simp only [Option.some.injEq] at h
        right; left
        refine ⟨h.symm, ?_⟩
        rintro ⟨c, hc⟩
        have hnil : parentsTraces g curr = [] := List.length_eq_zero_iff.1 hz
        refine h3 c (fun i hi => (hmk c i).2 ?_)
        obtain ⟨j, hs⟩ := hc (heads[i]?.getD []) (by rw [List.getElem?_eq_getElem hi]; exact List.getElem_mem hi)
        refine ⟨_, hsome i hi, j, ?_, hs⟩
        refine Classical.byContradiction (fun hlt' => ?_)
        have hpre : ∀ j, k + 1 ≤ j → ∀ a, StepsTo g j (heads[i]?.getD []) a → ∃ a', StepsTo g (k + 1) (heads[i]?.getD []) a' := by
          intro j
          induction j with
          | zero => intro hj; omega
          | succ j ihj =>
            intro hj a hs
            by_cases hjk : j = k
            · subst hjk; exact ⟨a, hs⟩
            · cases hs with
              | succ hs _ => exact ihj (by omega) _ hs
        obtain ⟨a', ha'⟩ := hpre j (by omega) c hs
        have := (hcur i a').2 ⟨_, hsome i hi, ha'⟩
        rw [hnil] at this
        cases this
      · rw [if_neg hz] at h
        exact ih (k + 1) r' _ ⟨h2, h3, hmk, hcur⟩ out h

theorem lcp_start (g : GoMap Str (List Str)) {heads : List Str} (hne : heads ≠ []) :
    RoundInv g heads 0 [] (heads.zipIdx.map (fun e => { headInd := e.2, commit := e.1 })) := by
  refine ⟨fun c => GoMap.wf_nil, ?_, ?_, ?_⟩
  · intro c h
    have := h 0 (List.length_pos_iff.2 hne)
    cases this
  · intro c i
    constructor
    · intro h; cases h
    · rintro ⟨_, _, j, hj, _⟩; omega
  · intro i c
    rw [List.mem_map]
    constructor
    · rintro ⟨⟨x, n⟩, hm, he⟩
      injection he with e1 e2
      simp only at e1 e2
      subst e1; subst e2
      rw [List.mem_zipIdx_iff_getElem?] at hm
      exact ⟨x, hm, .zero x⟩
    · rintro ⟨h, hi, hs⟩
      cases hs
      exact ⟨(c, i), List.mem_zipIdx_iff_getElem?.2 hi, rfl⟩

/-- **C51.** A commit that is returned can be reached from all heads, and it is a nearest one: no commit can be reached from all heads in
fewer steps (the largest of the distances counts). -/
theorem C51_common_ancestor {g : GoMap Str (List Str)} {heads : List Str} {rounds : Nat} {c : Str} (hne : heads ≠ [])
    (h : lastCommonParent g heads rounds = some (.ok c)) :
    ∃ k, (∀ x ∈ heads, Within g k x c) ∧ ∀ c' j, (∀ x ∈ heads, Within g j x c') → k ≤ j := by
  rcases lcpLoop_spec g heads rounds 0 _ _ (lcp_start g hne) _ h with ⟨c', k, h1, h2⟩ | ⟨h1, _⟩ | h1
  · injection h1 with h1
    subst h1
    exact ⟨k, h2⟩
  · cases h1
  · exact absurd h1 hne

/-- The loop ends after a number of rounds for every acyclic graph: one more than there are commits suffices. -/
theorem C51_terminates {g : GoMap Str (List Str)} (hg : AcyclicMap g) (heads : List Str) : ∃ out, lastCommonParent g heads (g.length + 2) = some out := by
  have hpath : ∀ k c a, StepsTo g k c a → ∃ l : List Str, l.length = k ∧ l.Nodup ∧ (∀ b ∈ l, b ∈ GoMap.keys g) ∧ ∀ b ∈ l, ∃ j, StepsTo g (j + 1) b a := by
    intro k c a h
    induction h with
    | zero c => exact ⟨[], rfl, List.nodup_nil, by simp, by simp⟩
    | @succ k c b a hs hp ih =>
      obtain ⟨l, h1, h2, h3, h4⟩ := ih
      refine ⟨b :: l, by simp [h1], List.nodup_cons.2 ⟨fun hb => ?_, h2⟩, ?_, ?_⟩
      · obtain ⟨j, hj⟩ := h4 b hb
        exact hg j b hj
      · intro x hx
        rcases List.mem_cons.1 hx with rfl | hx
        · refine (GoMap.get_isSome_iff _ _).1 ?_
          cases hgx : GoMap.get g x with
          | none => rw [hgx] at hp; cases hp
          | some v => rfl
        · exact h3 x hx
      · intro x hx
        rcases List.mem_cons.1 hx with rfl | hx
        · exact ⟨0, .succ (.zero x) hp⟩
        · obtain ⟨j, hj⟩ := h4 x hx
          exact ⟨j + 1, .succ hj hp⟩
  have hbound : ∀ k c a, StepsTo g k c a → k ≤ g.length := by
    intro k c a h
    obtain ⟨l, h1, h2, h3, _⟩ := hpath k c a h
    have := h2.length_le_of_subset h3
    rw [length_keys] at this
    omega
  by_cases hne : heads = []
  · subst hne
    exact ⟨_, rfl⟩
  have key : ∀ rounds k r curr, RoundInv g heads k r curr → g.length + 2 ≤ k + rounds → rounds ≠ 0 → ∃ out, lcpLoop g heads.length rounds r curr = some out := by
    intro rounds
    induction rounds with
    | zero => intro k r curr _ _ h; exact absurd rfl h
    | succ rounds ih =>
      intro k r curr inv hk _
      rw [lcpLoop]
      have hlt : ∀ i h, heads[i]? = some h → i < heads.length := fun i h hi => (List.getElem?_eq_some_iff.1 hi).1
      rcases lcpRound_spec g heads.length curr r [] inv.wf (fun c i hm => by
        obtain ⟨hh, h1, _⟩ := (inv.marked c i).1 hm
        exact hlt i hh h1) (fun tr htr => by
        obtain ⟨hh, h1, _⟩ := (inv.curr tr.headInd tr.commit).1 htr
        exact hlt _ hh h1) inv.notDone with ⟨c, h1, h2⟩ | ⟨r', h1, h2, h3, h4⟩
      · rw [h1]; exact ⟨_, rfl⟩
      · rw [h1]
        simp only [List.nil_append]
        by_cases hz : (parentsTraces g curr).length = 0
        · rw [if_pos hz]; exact ⟨_, rfl⟩
        · rw [if_neg hz]
          have hmk : ∀ c i, Marked r' c i ↔ ∃ h, heads[i]? = some h ∧ ∃ j, j < k + 1 ∧ StepsTo g j h c := by
            intro c i
            rw [h4, inv.marked, inv.curr]
            constructor
            · rintro (⟨hh, a, j, b, d⟩ | ⟨hh, a, d⟩)
              · exact ⟨hh, a, j, by omega, d⟩
              · exact ⟨hh, a, k, by omega, d⟩
            · rintro ⟨hh, a, j, b, d⟩
              by_cases hj : j < k
              · exact Or.inl ⟨hh, a, j, hj, d⟩
              · have : j = k := by omega
                subst this
                exact Or.inr ⟨hh, a, d⟩
          have hcur : ∀ i c, ⟨i, c⟩ ∈ parentsTraces g curr ↔ ∃ h, heads[i]? = some h ∧ StepsTo g (k + 1) h c := by
            intro i c
            unfold parentsTraces
            rw [List.mem_flatMap]
            constructor
            · rintro ⟨tr, htr, hm⟩
              obtain ⟨p, hp, he⟩ := List.mem_map.1 hm
              obtain ⟨hh, a, b⟩ := (inv.curr tr.headInd tr.commit).1 htr
              injection he with e1 e2
              subst e1; subst e2
              exact ⟨hh, a, .succ b hp⟩
            · rintro ⟨hh, a, b⟩
              cases b with
              | succ b hp => exact ⟨⟨i, _⟩, (inv.curr i _).2 ⟨hh, a, b⟩, List.mem_map.2 ⟨c, hp, rfl⟩⟩
          have hk1 : k + 1 ≤ g.length := by
            cases hp : parentsTraces g curr with
            | nil => rw [hp] at hz; exact absurd rfl hz
            | cons t ts =>
              obtain ⟨hh, _, hs⟩ := (hcur t.headInd t.commit).1 (by rw [hp]; simp)
              exact hbound _ _ _ hs
          exact ih (k + 1) r' _ ⟨h2, h3, hmk, hcur⟩ (by omega) (by omega)
  exact key _ 0 _ _ (lcp_start g hne) (by omega) (by omega)

/-- It panics exactly if no commit can be reached from all heads. -/
theorem C51_panics_iff {g : GoMap Str (List Str)} (hg : AcyclicMap g) {heads : List Str} (hne : heads ≠ []) :
    lastCommonParent g heads (g.length + 2) = some (.error (.panic "all roots reached")) ↔ ¬ ∃ c, ∀ x ∈ heads, AncestorOf g x c := by
  obtain ⟨out, ho⟩ := C51_terminates hg heads
  rcases lcpLoop_spec g heads _ 0 _ _ (lcp_start g hne) _ ho with ⟨c, k, h1, h2, _⟩ | ⟨h1, h2⟩ | h1
  · constructor
    · intro h
      rw [ho, h1] at h
      cases h
    · intro h
      exact absurd ⟨c, fun x hx => let ⟨j, _, hj⟩ := h2 x hx; ⟨j, hj⟩⟩ h
  · exact ⟨fun _ => h2, fun _ => by rw [ho, h1]⟩
  · exact absurd h1 hne

/-- With no heads it panics. -/
theorem C51_no_heads (g : GoMap Str (List Str)) (rounds : Nat) : lastCommonParent g [] (rounds + 1) = some (.error (.panic "all roots reached")) := rfl

/-- `a` and `b` have the parent `d` in common, and also `c`, a child of `d`, which is further away from `b`. -/
def exLcp : GoMap Str (List Str) :=
  [(b!"a", [b!"c", b!"d"]), (b!"b", [b!"d", b!"e"]), (b!"e", [b!"f"]), (b!"f", [b!"c"]), (b!"c", [b!"d"]), (b!"d", [])]

theorem StepsTo.rank {g : GoMap Str (List Str)} (rank : Str → Nat) (h : ∀ e ∈ g, ∀ p ∈ e.2, rank p < rank e.1) {k : Nat} {c a : Str} (hs : StepsTo g k c a) :
    rank a + k ≤ rank c := by
  induction hs with
  | zero => omega
  | @succ k c b a _ hp ih =>
    cases hg : GoMap.get g b with
    | none => rw [hg] at hp; cases hp
    | some ps =>
      rw [hg] at hp
      have := h _ (GoMap.mem_of_get hg) a hp
      simp only at this
      omega

def exRank (c : Str) : Nat := if c = b!"d" then 0 else if c = b!"c" then 1 else if c = b!"f" then 2 else if c = b!"e" then 3 else 4

theorem exLcp_acyclic : AcyclicMap exLcp := by
  intro k c h
  have := StepsTo.rank exRank (by decide) h
  omega

/-- What is returned need not be a lowest common ancestor. -/
theorem C51_not_lowest : lastCommonParent exLcp [b!"a", b!"b"] (exLcp.length + 2) = some (.ok b!"d") ∧ ¬ LowestCommon exLcp [b!"a", b!"b"] b!"d" := by
  refine ⟨by decide, ?_⟩
  rintro ⟨_, h⟩
  refine h ⟨b!"c", 0, ?_, .succ (.zero _) (by decide)⟩
  intro x hx
  simp only [List.mem_cons, List.not_mem_nil, or_false] at hx
  rcases hx with rfl | rfl
  · exact ⟨1, .succ (.zero _) (by decide)⟩
  · exact ⟨3, .succ (.succ (.succ (.zero _) (by decide : b!"e" ∈ _)) (by decide : b!"f" ∈ _)) (by decide)⟩

/-- The graph of the counter-example meets the hypotheses above; `b` and `e` have no common ancestor when the others are unknown. -/
example : AcyclicMap exLcp ∧ lastCommonParent exLcp [b!"a", b!"e"] 8 = some (.ok b!"c") ∧
    lastCommonParent [(b!"a", [b!"x"]), (b!"b", [b!"y"])] [b!"a", b!"b"] 4 = some (.error (.panic "all roots reached")) :=
  ⟨exLcp_acyclic, by decide, by decide⟩

end Ripsrc
