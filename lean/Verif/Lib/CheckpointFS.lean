import Verif.Spec.CheckpointFS
/-!
# Lemmas on the file operations of the checkpoint writer
-/
namespace Ripsrc
open Spec

theorem exec_append (s : FS) (a b : List FSOp) : s.exec (a ++ b) = (s.exec a).exec b := List.foldl_append

theorem exec_tmp (s : FS) (ops : List DirOp) : s.exec (ops.map .tmp) = { s with tmp := ops.foldl DirOp.run s.tmp } := by
  induction ops generalizing s with
  | nil => rfl
  | cons o ops ih => exact ih (FSOp.run s (.tmp o))

theorem exec_cp (s : FS) (ops : List DirOp) : s.exec (ops.map .cp) = { s with cp := ops.foldl DirOp.run s.cp } := by
  induction ops generalizing s with
  | nil => rfl
  | cons o ops ih => exact ih (FSOp.run s (.cp o))

/-! ## RemoveAll -/

theorem unlink_all (names : List Str) (d : Dir) :
    (names.map DirOp.unlink).foldl DirOp.run (some d) = some (d.filter (fun e => decide (e.1 ∉ names))) := by
  induction names generalizing d with
  | nil => simpa using (List.filter_eq_self.2 (by simp)).symm
  | cons n names ih =>
    rw [List.map_cons, List.foldl_cons]
    show List.foldl DirOp.run (some (GoMap.del d n)) _ = _
    rw [ih, GoMap.del, List.filter_filter]
    congr 1
    refine List.filter_congr (fun e _ => ?_)
    by_cases h1 : e.1 = n <;> by_cases h2 : e.1 ∈ names <;> simp [h1, h2]

theorem removeAll_none {d : Option Dir} {names : List Str} (h : names.Perm (GoMap.keys (d.getD []))) : (removeAllOps d names).foldl DirOp.run d = none := by
  cases d with
  | none => rfl
  | some d =>
    rw [removeAllOps, List.foldl_append, unlink_all]
    have : d.filter (fun e => decide (e.1 ∉ names)) = [] := by
      rw [List.filter_eq_nil_iff]
      intro e he
      have : e.1 ∈ names := h.mem_iff.2 (List.mem_map_of_mem he)
      simp [this]
    rw [this]
    rfl

/-- Some files of the directory are missing. -/
def PartOf (d' d : Option Dir) : Prop :=
  ∀ n, GoMap.get (d'.getD []) n = none ∨ GoMap.get (d'.getD []) n = GoMap.get (d.getD []) n

theorem unlink_part (names : List Str) (d : Dir) : PartOf (some (d.filter (fun e => decide (e.1 ∉ names)))) (some d) := by
  intro n
  simp only [Option.getD_some]
  by_cases hn : n ∈ names
  · left
    rw [GoMap.get_eq_none_iff]
    intro hk
    obtain ⟨e, he, rfl⟩ := List.mem_map.1 hk
    have := (List.mem_filter.1 he).2
    simp [hn] at this
  · right
    induction d with
    | nil => rfl
    | cons e d ih =>
      by_cases he : e.1 ∈ names
      · have hne : e.1 ≠ n := fun hh => hn (hh ▸ he)
        rw [List.filter_cons_of_neg (by simp [he]), ih]
        simp [GoMap.get, hne]
      · rw [List.filter_cons_of_pos (by simp [he])]
        by_cases hen : e.1 = n
        · simp [GoMap.get, hen]
        · simp only [GoMap.get, hen] at ih ⊢
          simpa using ih

theorem removeAll_prefix {d : Option Dir} {names : List Str} {ops : List DirOp} (hp : ops <+: removeAllOps d names) :
    PartOf (ops.foldl DirOp.run d) d := by
  cases d with
  | none =>
    rw [removeAllOps] at hp
    rw [List.prefix_nil.1 hp]
    intro n; right; rfl
  | some d =>
    rw [removeAllOps] at hp
    rcases List.prefix_concat_iff.1 hp with h | h
    · rw [h, List.foldl_append, unlink_all]
      simp only [List.foldl_cons, List.foldl_nil, DirOp.run]
      split
      · intro n; left; rfl
      · exact unlink_part names d
    · obtain ⟨ns, hns⟩ : ∃ ns : List Str, ops = ns.map DirOp.unlink := by
        refine ⟨names.take ops.length, ?_⟩
        rw [List.map_take]
        exact (List.prefix_iff_eq_take.1 h)
      rw [hns, unlink_all]
      exact unlink_part ns d

/-! ## Writing the files -/

/-- All pieces appended to file `x`. -/
def pieces (es : List (Str × Str)) (x : Str) : Str := ((es.filter (fun e => decide (e.1 = x))).map (·.2)).flatten

theorem appends_get (es : List (Str × Str)) (d : Dir) :
    ∃ d', (es.map (fun e => DirOp.append e.1 e.2)).foldl DirOp.run (some d) = some d' ∧
      ∀ x, GoMap.get d' x = (GoMap.get d x).map (· ++ pieces es x) := by
  induction es generalizing d with
  | nil => exact ⟨d, rfl, fun x => by simp [pieces]⟩
  | cons e es ih =>
    rw [List.map_cons, List.foldl_cons]
    cases hg : GoMap.get d e.1 with
    | none =>
      obtain ⟨d', h1, h2⟩ := ih d
      refine ⟨d', ?_, ?_⟩
      · simp only [DirOp.run, hg]; exact h1
      · intro x
        rw [h2]
        by_cases hx : e.1 = x
        · subst hx; rw [hg]; rfl
        · simp [pieces, hx]
    | some c =>
      obtain ⟨d', h1, h2⟩ := ih (GoMap.set d e.1 (c ++ e.2))
      refine ⟨d', ?_, ?_⟩
      · simp only [DirOp.run, hg]; exact h1
      · intro x
        rw [h2, GoMap.get_set]
        by_cases hx : e.1 = x
        · subst hx
          simp [pieces, hg]
        · simp [pieces, hx]

theorem pieces_same (k : Str) (l : List Str) : pieces (l.map (fun x => (k, x))) k = l.flatten := by
  simp only [pieces, List.filter_map, Function.comp_def, decide_true, List.map_map, List.map_id']
  rw [List.filter_eq_self.2 (by simp)]

theorem pieces_other {k x : Str} (h : k ≠ x) (l : List Str) : pieces (l.map (fun y => (k, y))) x = [] := by
  simp [pieces, List.filter_map, Function.comp_def, h]

theorem finish_get {d : Dir} {k c : Str} (l : List Str) (hc : GoMap.get d (tmpName k) = some c) :
    ∃ d', (l.map (DirOp.append (tmpName k)) ++ [DirOp.rename (tmpName k) k]).foldl DirOp.run (some d) = some d' ∧
      GoMap.get d' k = some (c ++ l.flatten) ∧ ∀ x, x ≠ k → x ≠ tmpName k → GoMap.get d' x = GoMap.get d x := by
  obtain ⟨d1, h1, h2⟩ := appends_get (l.map (fun x => (tmpName k, x))) d
  rw [List.map_map] at h1
  have h1 : (l.map (DirOp.append (tmpName k))).foldl DirOp.run (some d) = some d1 := h1
  have h3 := h2 (tmpName k)
  rw [hc, pieces_same] at h3
  refine ⟨GoMap.set (GoMap.del d1 (tmpName k)) k (c ++ l.flatten), ?_, ?_, ?_⟩
  · rw [List.foldl_append, h1]
    simp only [List.foldl_cons, List.foldl_nil, DirOp.run, h3, Option.map_some]
  · rw [GoMap.get_set_self]
  · intro x hx hxt
    rw [GoMap.get_set_ne _ _ (fun h => hx h.symm), GoMap.get_del, if_neg (fun h => hxt h.symm), h2 x, pieces_other (fun h => hxt h.symm)]
    simp

theorem created : (kinds.flatMap (fun k => [DirOp.mkdir, .create (tmpName k)])).foldl DirOp.run none = some (kinds.map (fun k => (tmpName k, []))) := rfl

theorem tmpName_inj {a b : Str} (h : tmpName a = tmpName b) : a = b := List.append_cancel_right h

theorem pieces_map (f : Str → Str) (hf : ∀ a b, f a = f b → a = b) (es : List (Str × Str)) (k : Str) :
    pieces (es.map (fun e => (f e.1, e.2))) (f k) = pieces es k := by
  unfold pieces
  rw [List.filter_map, List.map_map]
  congr 2
  refine List.filter_congr (fun e _ => ?_)
  simp only [Function.comp_def]
  by_cases h : e.1 = k
  · simp [h]
  · have h2 : ¬ f e.1 = f k := fun hh => h (hf _ _ hh)
    simp [h, h2]

/-- After all files are written. -/
theorem body_get {ch : Chunks} {gz : Gzip} {r : Records} {last : Str} (h : ch.Ok gz r last) :
    ∃ d, (bodyOps ch).foldl DirOp.run none = some d ∧ ∀ n ∈ GoMap.keys (checkpointDir gz r last), GoMap.get d n = GoMap.get (checkpointDir gz r last) n := by
  unfold bodyOps
  obtain ⟨d1, e1, g1⟩ := appends_get (ch.loop.map (fun e => (tmpName e.1, e.2))) (kinds.map (fun k => (tmpName k, [])))
  rw [List.map_map] at e1
  have e1 : (ch.loop.map (fun e => DirOp.append (tmpName e.1) e.2)).foldl DirOp.run (some (kinds.map (fun k => (tmpName k, [])))) = some d1 := e1
  have hk : ∀ k ∈ kinds, GoMap.get d1 (tmpName k) = some (pieces ch.loop k) := by
    intro k hk
    rw [g1, pieces_map tmpName (fun _ _ => tmpName_inj)]
    simp only [kinds, List.mem_cons, List.not_mem_nil, or_false] at hk
    rcases hk with rfl | rfl | rfl | rfl <;> simp [GoMap.get, kinds, tmpName]
  obtain ⟨d2, e2, v2, g2⟩ := finish_get (ch.fin b!"repo") (hk b!"repo" (by decide))
  obtain ⟨d3, e3, v3, g3⟩ := finish_get (d := d2) (ch.fin b!"blames") ((g2 (tmpName b!"blames") (by decide) (by decide)).trans (hk b!"blames" (by decide)))
  obtain ⟨d4, e4, v4, g4⟩ := finish_get (d := d3) (ch.fin b!"lines") ((g3 (tmpName b!"lines") (by decide) (by decide)).trans
    ((g2 _ (by decide) (by decide)).trans (hk b!"lines" (by decide))))
  obtain ⟨d5, e5, v5, g5⟩ := finish_get (d := d4) (ch.fin b!"line-data") ((g4 (tmpName b!"line-data") (by decide) (by decide)).trans
    ((g3 _ (by decide) (by decide)).trans ((g2 _ (by decide) (by decide)).trans (hk b!"line-data" (by decide)))))
  obtain ⟨d6, e6, v6, g6⟩ := finish_get (d := GoMap.set d5 (tmpName versionFile) []) (k := versionFile) ch.version (GoMap.get_set_self _ _ _)
  have hfin : (kinds.flatMap (fun k => (ch.fin k).map (DirOp.append (tmpName k)) ++ [DirOp.rename (tmpName k) k])) =
      ((ch.fin b!"repo").map (DirOp.append (tmpName b!"repo")) ++ [DirOp.rename (tmpName b!"repo") b!"repo"]) ++
      (((ch.fin b!"blames").map (DirOp.append (tmpName b!"blames")) ++ [DirOp.rename (tmpName b!"blames") b!"blames"]) ++
      (((ch.fin b!"lines").map (DirOp.append (tmpName b!"lines")) ++ [DirOp.rename (tmpName b!"lines") b!"lines"]) ++
      (((ch.fin b!"line-data").map (DirOp.append (tmpName b!"line-data")) ++ [DirOp.rename (tmpName b!"line-data") b!"line-data"]) ++ []))) := rfl
  have hall : (kinds.flatMap (fun k => (ch.fin k).map (DirOp.append (tmpName k)) ++ [DirOp.rename (tmpName k) k])).foldl DirOp.run (some d1) = some d5 := by
    rw [hfin, List.foldl_append, e2, List.foldl_append, e3, List.foldl_append, e4, List.foldl_append, e5]
    rfl
  have hver : ([DirOp.create (tmpName versionFile)] ++ ch.version.map (DirOp.append (tmpName versionFile)) ++ [DirOp.rename (tmpName versionFile) versionFile]).foldl
      DirOp.run (some d5) = some d6 := by
    rw [List.append_assoc, List.foldl_append]
    exact e6
  refine ⟨d6, ?_, ?_⟩
  · rw [List.append_assoc, List.append_assoc, List.foldl_append, created, List.foldl_append, e1, List.foldl_append, hall]
    exact hver
  · have g6' : ∀ x, x ≠ versionFile → x ≠ tmpName versionFile → GoMap.get d6 x = GoMap.get d5 x := by
      intro x h1 h2
      rw [g6 x h1 h2, GoMap.get_set_ne _ _ (fun hh => h2 hh.symm)]
    intro n hn
    simp only [checkpointDir, GoMap.keys, List.map_cons, List.map_nil, List.mem_cons, List.not_mem_nil, or_false] at hn
    rcases hn with rfl | rfl | rfl | rfl | rfl
    · rw [g6' _ (by decide) (by decide), g5 _ (by decide) (by decide), g4 _ (by decide) (by decide), g3 _ (by decide) (by decide), v2]
      exact congrArg some (h.data _ (by decide))
    · rw [g6' _ (by decide) (by decide), g5 _ (by decide) (by decide), g4 _ (by decide) (by decide), v3]
      exact congrArg some (h.data _ (by decide))
    · rw [g6' _ (by decide) (by decide), g5 _ (by decide) (by decide), v4]
      exact congrArg some (h.data _ (by decide))
    · rw [g6' _ (by decide) (by decide), v5]
      exact congrArg some (h.data _ (by decide))
    · rw [show b!"checkpoint-version" = versionFile from rfl, v6, h.version]
      rfl

/-! ## Reading -/

theorem openMsg_part {gz : Gzip} {d' d : Dir} (h : ∀ n, GoMap.get d' n = none ∨ GoMap.get d' n = GoMap.get d n) (k : Str) :
    openMsg gz d' k = openMsg gz d k ∨ ReturnsError (openMsg gz d' k) := by
  unfold openMsg
  rcases h k with hk | hk
  · right; rw [hk]; exact ⟨_, rfl⟩
  · left; rw [hk]

theorem bind_part {α β : Type} {x x' : Go α} {f f' : α → Go β} (h : x' = x ∨ ReturnsError x') (hf : ∀ a, f' a = f a ∨ ReturnsError (f' a)) :
    (x' >>= f') = (x >>= f) ∨ ReturnsError (x' >>= f') := by
  rcases h with h | ⟨e, h⟩
  · rw [h]
    cases x with
    | error e => left; rfl
    | ok a => exact hf a
  · right; rw [h]; exact ⟨e, rfl⟩

/-- Reading a directory in which files are missing gives what the complete directory gives, or an error. -/
theorem read_part {gz : Gzip} {d' d : Option Dir} (h : PartOf d' d) (e : Str) :
    checkpointRead gz d' e = checkpointRead gz d e ∨ ReturnsError (checkpointRead gz d' e) := by
  unfold checkpointRead
  unfold PartOf at h
  generalize d'.getD [] = a at h ⊢
  generalize d.getD [] = b at h ⊢
  refine bind_part ?_ (fun _ => ?_)
  · unfold checkVersion
    split
    · left; rfl
    · rcases h versionFile with hv | hv
      · right; rw [hv]; exact ⟨_, rfl⟩
      · left; rw [hv]
  · exact bind_part (openMsg_part h _) (fun _ => bind_part (openMsg_part h _) (fun _ => bind_part (openMsg_part h _) (fun _ =>
      bind_part (openMsg_part h _) (fun _ => Or.inl rfl))))

/-- Reading looks only at five files. -/
theorem read_congr {gz : Gzip} {d d' : Dir} (h : ∀ n, n = b!"repo" ∨ n = b!"blames" ∨ n = b!"lines" ∨ n = b!"line-data" ∨ n = versionFile → GoMap.get d' n = GoMap.get d n)
    (e : Str) : checkpointRead gz (some d') e = checkpointRead gz (some d) e := by
  unfold checkpointRead checkVersion readFiles openMsg
  simp only [Option.getD_some]
  rw [h b!"repo" (by simp), h b!"blames" (by simp), h b!"lines" (by simp), h b!"line-data" (by simp), h versionFile (by simp)]

end Ripsrc
