import Verif.Model.Graph
import Verif.Lib.Text
/-! # Lemmas about the graph reader and the children map -/
namespace Ripsrc
open Spec

theorem parentsLine_render (m : GoMap Str (List Str)) (c : Str × List Str)
    (h : IsHash c.1 ∧ ∀ p ∈ c.2, IsHash p) : parentsLine m (parentsLineOf c) = .ok (m.set c.1 c.2) := by
  obtain ⟨h1, h2⟩ := h
  unfold parentsLine parentsLineOf
  have e1 : splitByte 64 (c.1 ++ b!"@" ++ joinWith b!" " c.2) = [c.1, joinWith b!" " c.2] := by
    rw [List.append_assoc, List.singleton_append, splitByte_append _ _ _ (h1.not_mem (by decide)),
      splitByte_last _ _ (not_mem_joinWith (by decide) (fun l hl => (h2 l hl).not_mem (by decide)))]
  rw [e1]
  simp only
  by_cases hc : c.2 = []
  · simp [hc, joinWith]
  · have := joinWith_ne_nil (sep := b!" ") hc (fun l hl => (h2 l hl).1)
    rw [if_pos (by simpa using this), splitByte_join _ _ hc (fun l hl => (h2 l hl).not_mem (by decide))]

theorem parentsFold (cs : List (Str × List Str)) (m : GoMap Str (List Str))
    (h : ∀ c ∈ cs, IsHash c.1 ∧ ∀ p ∈ c.2, IsHash p) :
    (cs.map parentsLineOf).foldlM parentsLine m = .ok (cs.foldl (fun m c => m.set c.1 c.2) m) := by
  induction cs generalizing m with
  | nil => rfl
  | cons c cs ih =>
    simp only [List.map_cons, List.foldlM_cons, List.foldl_cons]
    rw [parentsLine_render m c (h c (by simp))]
    exact ih _ (fun x hx => h x (by simp [hx]))

theorem foldl_set_wf (cs : List (Str × List Str)) (m : GoMap Str (List Str)) (hm : m.WF) :
    (cs.foldl (fun m c => m.set c.1 c.2) m).WF := by
  induction cs generalizing m with
  | nil => exact hm
  | cons c cs ih => exact ih _ (GoMap.wf_set hm c.1 c.2)

theorem foldl_set_get (cs : List (Str × List Str)) (m : GoMap Str (List Str))
    (hcons : ∀ c ∈ cs, ∀ d ∈ cs, c.1 = d.1 → c = d) (h : Str) :
    (∀ ps, (h, ps) ∈ cs → (cs.foldl (fun m c => m.set c.1 c.2) m).get h = some ps) ∧
    ((∀ ps, (h, ps) ∉ cs) → (cs.foldl (fun m c => m.set c.1 c.2) m).get h = m.get h) := by
  induction cs generalizing m with
  | nil => simp
  | cons c cs ih =>
    have ih' := ih (m.set c.1 c.2) (fun a ha b hb => hcons a (by simp [ha]) b (by simp [hb]))
    simp only [List.foldl_cons]
    constructor
    · intro ps hps
      by_cases hin : ∃ qs, (h, qs) ∈ cs
      · obtain ⟨qs, hqs⟩ := hin
        have : (h, ps) = (h, qs) := hcons _ hps _ (by simp [hqs]) rfl
        rw [this.symm] at hqs
        exact ih'.1 ps hqs
      · have hc : (h, ps) = c := by
          rcases List.mem_cons.1 hps with h1 | h1
          · exact h1
          · exact absurd ⟨ps, h1⟩ hin
        rw [ih'.2 (fun ps hps => hin ⟨ps, hps⟩), ← hc]
        simp
    · intro hno
      rw [ih'.2 (fun ps hps => hno ps (by simp [hps]))]
      apply GoMap.get_set_ne
      intro hc
      exact hno c.2 (by rw [← hc]; simp)

theorem appendChildren_count (ps : List Str) (ch : GoMap Str (List Str)) (commit p c : Str) :
    (((appendChildren ch commit ps).get p).getD []).count c
      = ((ch.get p).getD []).count c + (if c = commit then ps.count p else 0) := by
  induction ps generalizing ch with
  | nil => simp [appendChildren]
  | cons q ps ih =>
    have : appendChildren ch commit (q :: ps)
        = appendChildren (ch.set q ((ch.get q).getD [] ++ [commit])) commit ps := rfl
    rw [this, ih]
    rw [GoMap.get_set]
    by_cases hq : q = p
    · subst hq
      simp only [if_true, Option.getD_some, List.count_append, List.count_cons_self]
      by_cases hc : c = commit
      · subst hc; simp; omega
      · simp [hc, Ne.symm hc]
    · simp only [hq, if_false]
      have : (q :: ps).count p = ps.count p := by simp [hq]
      rw [this]

theorem appendChildren_keys (ps : List Str) (ch : GoMap Str (List Str)) (commit k : Str) :
    k ∈ (appendChildren ch commit ps).keys ↔ k ∈ ch.keys ∨ k ∈ ps := by
  induction ps generalizing ch with
  | nil => simp [appendChildren]
  | cons q ps ih =>
    have : appendChildren ch commit (q :: ps)
        = appendChildren (ch.set q ((ch.get q).getD [] ++ [commit])) commit ps := rfl
    rw [this, ih, GoMap.mem_keys_set]
    simp only [List.mem_cons]
    constructor
    · rintro ((h | h) | h) <;> simp [h]
    · rintro (h | h | h) <;> simp [h]

theorem appendChildren_wf (ps : List Str) (ch : GoMap Str (List Str)) (commit : Str) (h : ch.WF) :
    (appendChildren ch commit ps).WF := by
  induction ps generalizing ch with
  | nil => exact h
  | cons q ps ih => exact ih _ (GoMap.wf_set h _ _)

theorem childrenStep_spec (ch : GoMap Str (List Str)) (e : Str × List Str) (hwf : ch.WF) :
    (childrenStep ch e).WF ∧ (∀ k, k ∈ (childrenStep ch e).keys ↔ k ∈ ch.keys ∨ k = e.1 ∨ k ∈ e.2) ∧
    ∀ p c, (((childrenStep ch e).get p).getD []).count c
      = ((ch.get p).getD []).count c + (if c = e.1 then e.2.count p else 0) := by
  unfold childrenStep
  by_cases h : ch.has e.1 = true
  · simp only [h, if_true]
    refine ⟨appendChildren_wf _ _ _ hwf, ?_, fun p c => appendChildren_count _ _ _ _ _⟩
    intro k
    rw [appendChildren_keys]
    constructor
    · rintro (h | h) <;> simp [h]
    · rintro (h' | rfl | h')
      · simp [h']
      · left; exact (GoMap.has_iff _ _).1 h
      · simp [h']
  · simp only [h]
    refine ⟨appendChildren_wf _ _ _ (GoMap.wf_set hwf _ _), ?_, ?_⟩
    · intro k
      simp only [Bool.false_eq_true, if_false]
      rw [appendChildren_keys, GoMap.mem_keys_set]
      constructor
      · rintro ((h | h) | h) <;> simp [h]
      · rintro (h | h | h) <;> simp [h]
    · intro p c
      simp only [Bool.false_eq_true, if_false]
      rw [appendChildren_count]
      congr 1
      rw [GoMap.get_set]
      by_cases hp : e.1 = p
      · have : ch.get p = none := by
          subst hp
          simpa [GoMap.has] using h
        simp [hp, this]
      · simp [hp]

theorem childrenFold_spec (order : List (Str × List Str)) (ch : GoMap Str (List Str)) (hwf : ch.WF) :
    (order.foldl childrenStep ch).WF ∧
    (∀ k, k ∈ (order.foldl childrenStep ch).keys ↔ k ∈ ch.keys ∨ ∃ e ∈ order, k = e.1 ∨ k ∈ e.2) ∧
    ∀ p c, (((order.foldl childrenStep ch).get p).getD []).count c
      = ((ch.get p).getD []).count c + (order.map (fun e => if c = e.1 then e.2.count p else 0)).sum := by
  induction order generalizing ch with
  | nil => simp [hwf]
  | cons e order ih =>
    obtain ⟨s1, s2, s3⟩ := childrenStep_spec ch e hwf
    obtain ⟨i1, i2, i3⟩ := ih _ s1
    refine ⟨i1, ?_, ?_⟩
    · intro k
      simp only [List.foldl_cons]
      rw [i2, s2]
      simp only [List.mem_cons]
      constructor
      · rintro ((h | h) | ⟨e', he', h⟩)
        · simp [h]
        · exact Or.inr ⟨e, by simp, h⟩
        · exact Or.inr ⟨e', by simp [he'], h⟩
      · rintro (h | ⟨e', rfl | he', h⟩)
        · simp [h]
        · simp [h]
        · exact Or.inr ⟨e', he', h⟩
    · intro p c
      simp only [List.foldl_cons, List.map_cons, List.sum_cons]
      rw [i3, s3]
      omega

theorem map_get_sort (m : GoMap Str (List Str)) (k : Str) :
    GoMap.get (m.map (fun e => (e.1, sortStrings e.2))) k = (m.get k).map sortStrings := by
  induction m with
  | nil => rfl
  | cons e m ih =>
    simp only [List.map_cons, GoMap.get]
    split
    · rfl
    · exact ih

theorem keys_map_sort (m : GoMap Str (List Str)) :
    GoMap.keys (m.map (fun e => (e.1, sortStrings e.2))) = m.keys := by
  simp [GoMap.keys]

theorem count_sum_unique (order : List (Str × List Str)) (hwf : GoMap.WF order) (p c : Str) :
    (order.map (fun e => if c = e.1 then e.2.count p else 0)).sum = ((GoMap.get order c).getD []).count p := by
  induction order with
  | nil => simp
  | cons e order ih =>
    have hw := List.nodup_cons.1 (show (e.1 :: GoMap.keys order).Nodup from hwf)
    simp only [List.map_cons, List.sum_cons, GoMap.get]
    rw [ih hw.2]
    by_cases h : e.1 = c
    · have : GoMap.get order c = none := by rw [GoMap.get_eq_none_iff]; rw [← h]; exact hw.1
      simp [h, this]
    · simp [h, Ne.symm h]

end Ripsrc
