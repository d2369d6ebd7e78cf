import Verif.Spec.Validate
import Verif.Props.AnyLog
import Verif.Props.ProcessState
import Verif.Props.Ripsrc
/-!
# C64: the command `validate_inc_blame`
-/
namespace Ripsrc
open Spec

theorem mostlySame_iff {a b : Str} : mostlySame a b = true ↔ a = b ∧ a.length ≤ 10 := by
  unfold mostlySame
  by_cases h : a = b
  · rw [if_pos h]
    by_cases h2 : a.length ≤ 10
    · simp [h, h2, h ▸ h2]
    · rw [if_neg h2, if_neg]
      · simp [h2]
      · intro h3; apply h2; rw [h3]; decide
  · simp [h]

/-- What the loop over the lines prints. -/
theorem validateLines_spec : ∀ (ls : List Line) (es : List (Str × Str)) (i : Nat), ls.length = es.length →
    (validateLines i ls es = [] ∧ ∀ (j : Nat) l e, ls[j]? = some l → es[j]? = some e → LineAgrees l e) ∨
    ∃ (j : Nat) (l : Line) (e : Str × Str), ls[j]? = some l ∧ es[j]? = some e ∧ ¬ LineAgrees l e ∧
      (∀ (k : Nat) l' e', k < j → ls[k]? = some l' → es[k]? = some e' → LineAgrees l' e') ∧
      validateLines i ls es = [if l.commit ≠ e.1 then .invalidCommit (i + j) else .invalidContent (i + j)] := by
  intro ls
  induction ls with
  | nil => intro es i h; exact .inl ⟨by simp [validateLines], by simp⟩
  | cons l ls ih =>
    intro es i h
    cases es with
    | nil => simp at h
    | cons e es =>
      by_cases ha : LineAgrees l e
      · have hstep : validateLines i (l :: ls) (e :: es) = validateLines (i + 1) ls es := by
          simp only [validateLines]
          rw [if_neg, if_neg (fun h => h ha.1)]
          rintro ⟨h1, h2⟩
          have : mostlySame (trimSpace l.line) (trimSpace e.2) = true := mostlySame_iff.2 ⟨ha.1, ha.2.resolve_left h1⟩
          rw [this] at h2
          cases h2
        rw [hstep]
        rcases ih es (i + 1) (by simpa using h) with ⟨h1, h2⟩ | ⟨j, l', e', h1, h2, h3, h4, h5⟩
        · refine .inl ⟨h1, ?_⟩
          intro j l' e' hl he
          cases j with
          | zero => simp at hl he; subst hl; subst he; exact ha
          | succ j => exact h2 j l' e' (by simpa using hl) (by simpa using he)
        · refine .inr ⟨j + 1, l', e', by simpa using h1, by simpa using h2, h3, ?_, ?_⟩
          · intro k l'' e'' hk hl he
            cases k with
            | zero => simp at hl he; subst hl; subst he; exact ha
            | succ k => exact h4 k l'' e'' (by omega) (by simpa using hl) (by simpa using he)
          · rw [h5, show i + 1 + j = i + (j + 1) by omega]
      · refine .inr ⟨0, l, e, by simp, by simp, ha, by intro k _ _ hk; omega, ?_⟩
        simp only [validateLines]
        by_cases hc : l.commit = e.1
        · rw [if_neg (fun h => h.1 hc), if_pos (fun ht => ha ⟨ht, .inl hc⟩), if_neg (fun h => h hc)]
          rfl
        · rw [if_pos, if_pos hc]
          · rfl
          · refine ⟨hc, ?_⟩
            cases hm : mostlySame (trimSpace l.line) (trimSpace e.2) with
            | false => rfl
            | true => exact absurd ⟨(mostlySame_iff.1 hm).1, .inr (mostlySame_iff.1 hm).2⟩ ha

/-- **C64 (one file).** For a reported file with lines, of which git blame prints `out`: nothing is complained about exactly if the two blames agree; if their lengths differ this is said; otherwise the one complaint
is about the first line that does not agree, and it is about the commit exactly if the commits differ. -/
theorem C64_file (blameOut : Str → Str → Option Str) (c p : Str) (b : Blame) (out : Str) (es : List (Str × Str)) (hb : b.lines ≠ []) (ho : blameOut c p = some out)
    (hr : blameResult out = .ok es) :
    ∃ ms, validateFile blameOut c p b = (.checkingFile c p :: ms, none) ∧
      (ms = [] ↔ BlamesAgree b es) ∧
      (b.lines.length ≠ es.length → ms = [.lenMismatch, .failed]) ∧
      (b.lines.length = es.length → ¬ BlamesAgree b es → ∃ (j : Nat) (l : Line) (e : Str × Str), b.lines[j]? = some l ∧ es[j]? = some e ∧ ¬ LineAgrees l e ∧
        (∀ (k : Nat) l' e', k < j → b.lines[k]? = some l' → es[k]? = some e' → LineAgrees l' e') ∧
        ms = [if l.commit ≠ e.1 then .invalidCommit j else .invalidContent j]) := by
  refine ⟨validateBlames b es, ?_, ?_, ?_, ?_⟩
  · unfold validateFile
    rw [if_neg (by intro h; exact hb (List.length_eq_zero_iff.1 h)), ho]
    simp only [hr]
  · unfold validateBlames
    by_cases hl : b.lines.length = es.length
    · rw [if_neg (fun h => h hl)]
      rcases validateLines_spec _ _ 0 hl with ⟨h1, h2⟩ | ⟨j, l, e, h1, h2, h3, _, h5⟩
      · rw [h1]; exact ⟨fun _ => ⟨hl, h2⟩, fun _ => rfl⟩
      · rw [h5]; exact ⟨fun h => by simp at h, fun h => absurd (h.2 j l e h1 h2) h3⟩
    · rw [if_pos hl]
      exact ⟨fun h => by simp at h, fun h => absurd h.1 hl⟩
  · intro hl
    unfold validateBlames
    rw [if_pos hl]
  · intro hl hn
    unfold validateBlames
    rw [if_neg (fun h => h hl)]
    rcases validateLines_spec _ _ 0 hl with ⟨h1, h2⟩ | ⟨j, l, e, h1, h2, h3, h4, h5⟩
    · exact absurd ⟨hl, h2⟩ hn
    · exact ⟨j, l, e, h1, h2, h3, h4, by rw [h5, Nat.zero_add]⟩

/-- **C64 (files without lines).** A file that is reported without lines - deleted, empty, or binary - is never compared. -/
theorem C64_not_compared (blameOut : Str → Str → Option Str) (c p : Str) (b : Blame) (hb : b.lines = []) : validateFile blameOut c p b = ([.checkingFile c p], none) := by
  unfold validateFile
  rw [hb]
  rfl

/-- **C64 (the verdict says nothing).** For every repository: `SUCCESS` is printed if and only if nothing panicked; complaints have no influence. -/
theorem C64_success_anyway (blameOut : Str → Str → Option Str) (ord : Nat → List Str → List Str) (repo : Str) (out : RunOut) :
    ValMsg.success repo ∈ (validateRepo blameOut ord repo out).1 ↔ (validateRepo blameOut ord repo out).2 = none := by
  have hl : ∀ (ls : List Line) (es : List (Str × Str)) (i : Nat), ValMsg.success repo ∉ validateLines i ls es := by
    intro ls
    induction ls with
    | nil => intro es i; simp [validateLines]
    | cons l ls ih =>
      intro es i
      cases es with
      | nil => simp [validateLines]
      | cons e es =>
        simp only [validateLines]
        split
        · simp
        · split
          · simp
          · exact ih es (i + 1)
  have hf : ∀ c p b, ValMsg.success repo ∉ (validateFile blameOut c p b).1 := by
    intro c p b
    unfold validateFile
    split
    · simp
    · split
      · simp
      · split
        · simp
        · simp only [List.mem_cons, reduceCtorEq, false_or]
          unfold validateBlames
          split
          · simp
          · exact hl _ _ _
  have hfs : ∀ c files ps, ValMsg.success repo ∉ (validateFiles blameOut c files ps).1 := by
    intro c files ps
    induction ps with
    | nil => simp [validateFiles]
    | cons p ps ih =>
      simp only [validateFiles]
      split
      · exact ih
      · rename_i b _
        have := hf c p b
        split <;> rename_i h <;> rw [h] at this
        · exact this
        · simp only [List.mem_append, not_or]
          exact ⟨this, ih⟩
  have hrs : ∀ rs i, ValMsg.success repo ∉ (validateResults blameOut ord i rs).1 := by
    intro rs
    induction rs with
    | nil => intro i; simp [validateResults]
    | cons r rs ih =>
      intro i
      simp only [validateResults]
      have := hfs r.commit r.files (ord i (GoMap.keys r.files))
      split <;> rename_i h <;> rw [h] at this
      · simpa using this
      · simp only [List.mem_cons, reduceCtorEq, List.mem_append, false_or, not_or]
        exact ⟨this, ih (i + 1)⟩
  have := hrs out.sent 0
  unfold validateRepo
  split <;> rename_i h <;> rw [h] at this
  · simpa using this
  · split
    · simpa using this
    · simp

/-- Whether the command can blame the file. -/
theorem validateFile_ok {blameOut : Str → Str → Option Str} {c p : Str} {b : Blame} :
    (validateFile blameOut c p b).2 = none ↔ (b.lines ≠ [] → ∃ o es, blameOut c p = some o ∧ blameResult o = .ok es) := by
  unfold validateFile
  by_cases hb : b.lines = []
  · rw [if_pos (by rw [hb]; rfl)]
    exact ⟨fun _ h => absurd hb h, fun _ => rfl⟩
  · rw [if_neg (fun h => hb (List.length_eq_zero_iff.1 h))]
    cases ho : blameOut c p with
    | none => simp [hb]
    | some o => cases hr : blameResult o with
      | error e => simp [hb, hr]
      | ok es => simp [hr]

theorem validateFiles_ok {blameOut : Str → Str → Option Str} {c : Str} {files : Files} : ∀ ps : List Str,
    (validateFiles blameOut c files ps).2 = none ↔ ∀ p ∈ ps, ∀ b, GoMap.get files p = some b → (validateFile blameOut c p b).2 = none := by
  intro ps
  induction ps with
  | nil => simp [validateFiles]
  | cons p ps ih =>
    simp only [validateFiles]
    cases hg : GoMap.get files p with
    | none => simp [ih, hg]
    | some b =>
      dsimp only
      cases hv : validateFile blameOut c p b with
      | mk ms f => cases f with
        | some e => simp [hg, hv]
        | none => simp [hg, hv, ih]

theorem validateResults_ok {blameOut : Str → Str → Option Str} {ord : Nat → List Str → List Str} : ∀ (rs : List Result) (i : Nat),
    (validateResults blameOut ord i rs).2 = none ↔
      ∀ (j : Nat) r, rs[j]? = some r → (validateFiles blameOut r.commit r.files (ord (i + j) (GoMap.keys r.files))).2 = none := by
  intro rs
  induction rs with
  | nil => intro i; simp [validateResults]
  | cons r rs ih =>
    intro i
    simp only [validateResults]
    have hs : ∀ P : Nat → Result → Prop, (∀ (j : Nat) r', (r :: rs)[j]? = some r' → P j r') ↔ P 0 r ∧ ∀ (j : Nat) r', rs[j]? = some r' → P (j + 1) r' := by
      intro P
      constructor
      · intro h
        exact ⟨h 0 r rfl, fun j r' hj => h (j + 1) r' hj⟩
      · rintro ⟨h1, h2⟩ j r' hj
        cases j with
        | zero => cases hj; exact h1
        | succ j => exact h2 j r' hj
    rw [hs (fun j r' => (validateFiles blameOut r'.commit r'.files (ord (i + j) (GoMap.keys r'.files))).2 = none)]
    rw [Nat.add_zero]
    cases hv : validateFiles blameOut r.commit r.files (ord i (GoMap.keys r.files)) with
    | mk ms f => cases f with
      | some e => simp
      | none =>
        dsimp only
        rw [ih (i + 1)]
        simp only [true_and]
        refine ⟨fun h j r' hj => ?_, fun h j r' hj => ?_⟩
        · have := h j r' hj; rwa [Nat.add_right_comm] at this
        · have := h j r' hj; rwa [show i + 1 + j = i + (j + 1) by omega]

/-- **C64 (when the verdict is `SUCCESS`).** In whatever order the files are visited: `SUCCESS` is printed, and nothing panics, exactly if the run itself succeeds and `git blame` succeeds with output that can be read
for every reported file that has lines. -/
theorem C64_success_iff (blameOut : Str → Str → Option Str) (ord : Nat → List Str → List Str) (hord : ∀ i l, List.Perm (ord i l) l) (repo : Str) (out : RunOut) :
    ValMsg.success repo ∈ (validateRepo blameOut ord repo out).1 ↔
      out.fault = none ∧ ∀ r ∈ out.sent, ∀ p b, GoMap.get r.files p = some b → b.lines ≠ [] → ∃ o es, blameOut r.commit p = some o ∧ blameResult o = .ok es := by
  rw [C64_success_anyway]
  have key : (validateResults blameOut ord 0 out.sent).2 = none ↔
      ∀ r ∈ out.sent, ∀ p b, GoMap.get r.files p = some b → b.lines ≠ [] → ∃ o es, blameOut r.commit p = some o ∧ blameResult o = .ok es := by
    rw [validateResults_ok]
    constructor
    · intro h r hr p b hg hb
      obtain ⟨j, hj⟩ := List.getElem?_of_mem hr
      exact validateFile_ok.1 ((validateFiles_ok _).1 (h j r hj) p ((hord _ _).mem_iff.2 ((GoMap.get_isSome_iff _ _).1 (by rw [hg]; rfl))) b hg) hb
    · intro h j r hj
      rw [validateFiles_ok]
      intro p _ b hg
      exact validateFile_ok.2 (h r (List.mem_of_getElem? hj) p b hg)
  rw [← key]
  unfold validateRepo
  cases hv : validateResults blameOut ord 0 out.sent with
  | mk ms f => cases f with
    | some e => simp
    | none => cases hf : out.fault <;> simp

/-- A file git blame fails for: no `SUCCESS`. -/
example : ValMsg.success b!"repo" ∉ (validateRepo (fun _ _ => none) (fun _ l => l) b!"repo"
    { sent := [{ commit := b!"c2", files := [(b!"f", { commit := b!"c2", lines := [{ line := b!"x", commit := b!"c1" }] })] }], fault := none, written := none }).1 := by
  decide

theorem sameLine_trim {a b : Str} (h : SameLine a b) : trimSpace a = trimSpace b := by
  obtain ⟨k, _, rfl⟩ := h
  rw [trimSpace_append]
  intro x hx
  rw [(List.mem_replicate.1 hx).2]
  decide

theorem validateFiles_clean {blameOut : Str → Str → Option Str} {c : Str} {files : Files} : ∀ (ps : List Str),
    (∀ p ∈ ps, ∀ b, GoMap.get files p = some b → validateFile blameOut c p b = ([.checkingFile c p], none)) →
    (validateFiles blameOut c files ps).2 = none ∧ ∀ m ∈ (validateFiles blameOut c files ps).1, IsComplaint m = false := by
  intro ps
  induction ps with
  | nil => intro _; simp [validateFiles]
  | cons p ps ih =>
    intro h
    have ih := ih (fun q hq => h q (by simp [hq]))
    simp only [validateFiles]
    split
    · exact ih
    · rename_i b hb
      rw [h p (by simp) b hb]
      refine ⟨ih.1, ?_⟩
      intro m hm
      rcases List.mem_append.1 hm with hm | hm
      · rw [List.mem_singleton.1 hm]; rfl
      · exact ih.2 m hm

theorem validateResults_clean {blameOut : Str → Str → Option Str} {ord : Nat → List Str → List Str} : ∀ (rs : List Result) (i : Nat),
    (∀ r ∈ rs, ∀ p b, GoMap.get r.files p = some b → validateFile blameOut r.commit p b = ([.checkingFile r.commit p], none)) →
    (validateResults blameOut ord i rs).2 = none ∧ ∀ m ∈ (validateResults blameOut ord i rs).1, IsComplaint m = false := by
  intro rs
  induction rs with
  | nil => intro i _; simp [validateResults]
  | cons r rs ih =>
    intro i h
    have ih := ih (i + 1) (fun q hq => h q (by simp [hq]))
    have hf := validateFiles_clean (ord i (GoMap.keys r.files)) (fun p _ b hb => h r (by simp) p b hb)
    simp only [validateResults]
    split <;> rename_i he <;> rw [he] at hf
    · exact absurd hf.1 (by simp)
    · refine ⟨ih.1, ?_⟩
      intro m hm
      rcases List.mem_cons.1 hm with rfl | hm
      · rfl
      · rcases List.mem_append.1 hm with hm | hm
        · exact hf.2 m hm
        · exact ih.2 m hm

/-- **C64 (a correct repository passes).** Over the log of any history (without changes of type in merges) in which git blame names the commits that following the changes back leads to, the command complains about nothing
and ends with `SUCCESS`. -/
theorem C64_history {env : Env} {G : Str → Str → List Str} {m : GoMap Str (List Str)} {order : List (Str × List Str)} {H : History}
    (h : Setting env H G m order) {es : List LogEntry} (hlog : LogOf H es) (hne : H ≠ []) (read : Str → Go Repo)
    (hans : ∀ c ∈ H, ∀ p n, c.tree p = some n → BlameAnswers G env.blameOut c.hash p n) (hf : BlameFollows H G) (ht : ∀ c ∈ H, NoTypeChange H c)
    (ord : Nat → List Str → List Str) (repo : Str) :
    ∃ log, parseLog (logText es) = .ok log ∧
      let res := validateRepo env.blameOut ord repo (run env {} read (Graph.newFromMap m order) log)
      res.2 = none ∧ (∀ x ∈ res.1, IsComplaint x = false) ∧ res.1.getLast? = some (.success repo) := by
  obtain ⟨log, s, h1, h2, h3⟩ := history_run_all h hlog hne read
  refine ⟨log, h1, ?_⟩
  have hbin := (C25_binary_without_lines env {} read (Graph.newFromMap m order) log (by intro e R hh; exact absurd rfl hh)).1
  have hfile : ∀ r ∈ s.sent, ∀ p b, GoMap.get r.files p = some b → validateFile env.blameOut r.commit p b = ([.checkingFile r.commit p], none) := by
    intro r hr p b hb
    obtain ⟨i, hi⟩ := List.mem_iff_getElem?.1 hr
    have hlen : s.sent.length = H.length := h3.sentLen
    have hlt := (List.getElem?_eq_some_iff.1 hi).1
    have hc : H[i]? = some (H[i]'(by omega)) := List.getElem?_eq_getElem _
    generalize H[i]'(by omega) = c at hc
    have hcH : c ∈ H := List.mem_of_getElem? hc
    have hok := h3.sentOk i c r hc hi
    by_cases hl : b.lines = []
    · exact C64_not_compared _ _ _ _ hl
    · have hnb : b.isBinary = false := by
        cases hbb : b.isBinary with
        | false => rfl
        | true => exact absurd (hbin r (by rw [h2]; exact hr) p b hb hbb) hl
      have hw : c.Writes H p := by
        rcases (hok.paths p).1 (by simp [GoMap.has, hb]) with hw | hd
        · exact hw
        · apply Classical.byContradiction
          intro hw
          obtain ⟨b', hb', _, hl', _⟩ := hok.removed p hd hw
          rw [hb] at hb'
          cases hb'
          exact hl hl'
      obtain ⟨b', n, k1, k2, k3⟩ := hok.written p hw ((ht c hcH).imp id (fun h hd => h p ⟨hd, hw⟩))
      rw [hb] at k1
      cases k1
      obtain ⟨⟨hlen, hcont⟩, hattr⟩ := Right.content k3 hnb
      obtain ⟨bes, e1, e2, e3, e4⟩ := hans c hcH p n k2
      have hcom : r.commit = c.hash := hok.commit
      obtain ⟨ms, v1, v2, _, _⟩ := C64_file env.blameOut c.hash p b _ _ hl e2 (C41_blame_result bes e1)
      rw [hcom, v1, v2.2]
      constructor
      · rw [hlen, ← e3]; simp
      · intro j l e hl' he
        obtain ⟨a, ha, hs⟩ := hcont j l hl'
        have ho := hf c hcH p n k2 j _ (by rw [← hlen]; exact (List.getElem?_eq_some_iff.1 hl').1) (hattr j l hl')
        rw [← e3, List.getElem?_map] at ha
        rw [← e4, List.getElem?_map] at ho
        rw [List.getElem?_map] at he
        cases hbe : bes[j]? with
        | none => rw [hbe] at ha; cases ha
        | some x =>
          rw [hbe] at ha ho he
          cases ha; cases he
          exact ⟨sameLine_trim hs, .inl (Option.some.inj ho).symm⟩
  have hclean := validateResults_clean (blameOut := env.blameOut) (ord := ord) s.sent 0 hfile
  rw [h2]
  unfold validateRepo
  simp only
  split <;> rename_i he <;> rw [he] at hclean
  · exact absurd hclean.1 (by simp)
  · refine ⟨rfl, ?_, List.getLast?_concat⟩
    intro x hx
    rcases List.mem_append.1 hx with hx | hx
    · rcases List.mem_cons.1 hx with rfl | hx
      · rfl
      · exact hclean.2 x hx
    · rw [List.mem_singleton.1 hx]; rfl

/-! The history of the example, with the answers of `git blame` that belong to it. -/

/-- What git blame names. -/
def goodBlames (c p : Str) : List Str :=
  (([((b!"c1", b!"f"), [b!"c1"]), ((b!"c2", b!"f"), [b!"c1"]), ((b!"c2", b!"g"), [b!"c2"]), ((b!"c3", b!"f"), [b!"c1", b!"c3"]), ((b!"c4", b!"f"), [b!"c1", b!"c3"]),
    ((b!"c4", b!"g"), [b!"c2", b!"c4"]), ((b!"c5", b!"g"), [b!"c2", b!"c4"])] : List ((Str × Str) × List Str)).lookup (c, p)).getD []

/-- What it prints. -/
def goodEnv : Env := { Ex.env with
  blameOut := fun c p => (Ex.H.treeOf c p).map (fun n => blameText ((n.zip (goodBlames c p)).map (fun x => { hash := x.2, content := x.1 }))) }

/-- The files of the example. -/
theorem ex_files {Q : HCommit → Str → List Str → Prop} (h1 : Q Ex.c1 b!"f" [b!"a"]) (h2 : Q Ex.c2 b!"f" [b!"a"]) (h3 : Q Ex.c2 b!"g" [b!"x"]) (h4 : Q Ex.c3 b!"f" [b!"a", b!"b"])
    (h5 : Q Ex.c4 b!"f" [b!"a", b!"b"]) (h6 : Q Ex.c4 b!"g" [b!"x", b!"y"]) (h7 : Q Ex.c5 b!"g" [b!"x", b!"y"]) : ∀ c ∈ Ex.H, ∀ p n, c.tree p = some n → Q c p n := by
  intro c hc p n hn
  simp only [Ex.H, List.mem_cons, List.not_mem_nil, or_false] at hc
  rcases hc with rfl | rfl | rfl | rfl | rfl <;> have := Ex.assocTree_mem hn
  · simp only [Ex.t1, List.mem_singleton, Prod.mk.injEq] at this; obtain ⟨rfl, rfl⟩ := this; exact h1
  · simp only [Ex.t2, List.mem_cons, List.not_mem_nil, or_false, Prod.mk.injEq] at this; rcases this with ⟨rfl, rfl⟩ | ⟨rfl, rfl⟩ <;> assumption
  · simp only [Ex.t3, List.mem_singleton, Prod.mk.injEq] at this; obtain ⟨rfl, rfl⟩ := this; exact h4
  · simp only [Ex.t4, List.mem_cons, List.not_mem_nil, or_false, Prod.mk.injEq] at this; rcases this with ⟨rfl, rfl⟩ | ⟨rfl, rfl⟩ <;> assumption
  · simp only [Ex.t5, List.mem_singleton, Prod.mk.injEq] at this; obtain ⟨rfl, rfl⟩ := this; exact h7

theorem ex_reach {c p : HCommit} (hc : c ∈ Ex.H) (hp : p.hash ∈ c.parents) : Ex.H.Parent c.hash p.hash := ⟨c, hc, rfl, hp⟩

theorem good_answers : ∀ c ∈ Ex.H, ∀ p n, c.tree p = some n → BlameAnswers goodBlames goodEnv.blameOut c.hash p n := by
    intro c hc p n hn
    have ht : Ex.H.treeOf c.hash p = some n := by rw [treeOf_of_mem Ex.history_ok hc, hn]
    have hl : n.length = (goodBlames c.hash p).length :=
      ex_files (Q := fun c p n => n.length = (goodBlames c.hash p).length) (by decide) (by decide) (by decide) (by decide) (by decide) (by decide) (by decide) c hc p n hn
    have hh : ∀ o ∈ goodBlames c.hash p, o ≠ [] ∧ NoNL o ∧ (32 : UInt8) ∉ o :=
      ex_files (Q := fun c p _ => ∀ o ∈ goodBlames c.hash p, o ≠ [] ∧ NoNL o ∧ (32 : UInt8) ∉ o) (by decide) (by decide) (by decide) (by decide) (by decide) (by decide) (by decide) c hc p n hn
    refine ⟨(n.zip (goodBlames c.hash p)).map (fun x => { hash := x.2, content := x.1 }), ?_, ?_, ?_, ?_⟩
    · intro e he
      obtain ⟨x, hx, rfl⟩ := List.mem_map.1 he
      refine ⟨hh _ (List.of_mem_zip hx).2, ⟨by show NoNL []; decide, Or.inl rfl⟩, by simp, Ex.lines_ok c hc p n hn _ (List.of_mem_zip hx).1⟩
    · simp only [goodEnv, ht, Option.map_some]
    · rw [List.map_map]
      exact (List.map_fst_zip (by omega))
    · rw [List.map_map]
      exact (List.map_snd_zip (by omega))

theorem good_blame : BlameWorks Ex.H goodBlames goodEnv.blameOut := by
  constructor
  · exact fun c hc p n hn _ => good_answers c hc p n hn
  · intro c hc p o ho
    have r1 : Ex.H.Parent b!"c2" b!"c1" := ex_reach (c := Ex.c2) (p := Ex.c1) (by simp [Ex.H]) (by decide)
    have r2 : Ex.H.Parent b!"c3" b!"c1" := ex_reach (c := Ex.c3) (p := Ex.c1) (by simp [Ex.H]) (by decide)
    have r3 : Ex.H.Parent b!"c4" b!"c2" := ex_reach (c := Ex.c4) (p := Ex.c2) (by simp [Ex.H]) (by decide)
    have r4 : Ex.H.Parent b!"c4" b!"c3" := ex_reach (c := Ex.c4) (p := Ex.c3) (by simp [Ex.H]) (by decide)
    have r5 : Ex.H.Parent b!"c5" b!"c4" := ex_reach (c := Ex.c5) (p := Ex.c4) (by simp [Ex.H]) (by decide)
    have hk : ∀ q ∈ ([((b!"c1", b!"f"), [b!"c1"]), ((b!"c2", b!"f"), [b!"c1"]), ((b!"c2", b!"g"), [b!"c2"]), ((b!"c3", b!"f"), [b!"c1", b!"c3"]), ((b!"c4", b!"f"), [b!"c1", b!"c3"]),
        ((b!"c4", b!"g"), [b!"c2", b!"c4"]), ((b!"c5", b!"g"), [b!"c2", b!"c4"])] : List ((Str × Str) × List Str)), ∀ o ∈ q.2, Ex.H.Reach q.1.1 o := by
      simp only [List.forall_mem_cons, List.not_mem_nil, false_implies, implies_true, and_true]
      refine ⟨.refl, .single r1, .refl, ⟨.single r2, .refl⟩, ⟨.tail (.single r4) r2, .single r4⟩, ⟨.single r3, .refl⟩, .tail (.single r5) r3, .single r5⟩
    unfold goodBlames at ho
    cases hlk : List.lookup (c.hash, p) ([((b!"c1", b!"f"), [b!"c1"]), ((b!"c2", b!"f"), [b!"c1"]), ((b!"c2", b!"g"), [b!"c2"]), ((b!"c3", b!"f"), [b!"c1", b!"c3"]), ((b!"c4", b!"f"), [b!"c1", b!"c3"]),
        ((b!"c4", b!"g"), [b!"c2", b!"c4"]), ((b!"c5", b!"g"), [b!"c2", b!"c4"])] : List ((Str × Str) × List Str)) with
    | none => rw [hlk] at ho; cases ho
    | some v =>
      rw [hlk] at ho
      have hmem : ∀ (l : List ((Str × Str) × List Str)) k v, List.lookup k l = some v → (k, v) ∈ l := by
        intro l k v h
        induction l with
        | nil => cases h
        | cons x l ih =>
          rw [List.lookup_cons] at h
          split at h
          · rename_i he
            cases h
            rw [show k = x.1 by simpa using he]
            exact List.mem_cons_self ..
          · exact List.mem_cons_of_mem _ (ih h)
      exact hk _ (hmem _ _ _ hlk) o ho

theorem good_setting : Setting goodEnv Ex.H goodBlames Ex.parents Ex.parents :=
  ⟨isort_sortsHunks, fun _ _ _ => .refl _, Ex.history_ok, good_blame, by decide, .refl _, by decide⟩

theorem ex_no_bin (h p : Str) : ¬ IsBin Ex.H h p := by
  apply no_binary
  intro c hc
  simp only [Ex.H, List.mem_cons, List.not_mem_nil, or_false] at hc
  rcases hc with rfl | rfl | rfl | rfl | rfl <;> decide

theorem good_follows : BlameFollows Ex.H goodBlames := by
  have m1 : Ex.c1 ∈ Ex.H := by simp [Ex.H]
  have m2 : Ex.c2 ∈ Ex.H := by simp [Ex.H]
  have m3 : Ex.c3 ∈ Ex.H := by simp [Ex.H]
  have m4 : Ex.c4 ∈ Ex.H := by simp [Ex.H]
  have m5 : Ex.c5 ∈ Ex.H := by simp [Ex.H]
  have nb : ∀ h p, ¬ IsBin Ex.H h p := ex_no_bin
  have o1 : Origin Ex.H goodBlames b!"c1" b!"f" 0 b!"c1" :=
    .added m1 (by decide) rfl (nb _ _) (f := Ex.createF b!"f" [b!"a"]) rfl (fun h => absurd rfl h) (by decide)
  have o2 : Origin Ex.H goodBlames b!"c2" b!"f" 0 b!"c1" := .untouched m2 rfl rfl (nb _ _) rfl o1
  have o3 : Origin Ex.H goodBlames b!"c2" b!"g" 0 b!"c2" :=
    .added m2 (by decide) rfl (nb _ _) (f := Ex.createF b!"g" [b!"x"]) rfl (fun h => absurd rfl h) (by decide)
  have o4 : Origin Ex.H goodBlames b!"c3" b!"f" 0 b!"c1" :=
    .kept m3 rfl rfl (nb _ _) (f := Ex.appendF b!"f" b!"a" [b!"b"]) rfl (by decide) (nb _ _) (i := 0) (by decide) o1
  have o5 : Origin Ex.H goodBlames b!"c3" b!"f" 1 b!"c3" :=
    .added m3 (by decide) rfl (nb _ _) (f := Ex.appendF b!"f" b!"a" [b!"b"]) rfl (fun _ _ _ => nb _ _) (by decide)
  have o6 : ∀ j o, Origin Ex.H goodBlames b!"c3" b!"f" j o → Origin Ex.H goodBlames b!"c4" b!"f" j o :=
    fun j o h => .mergeSame m4 (by decide) (nb _ _) ⟨(b!"c2", some (Ex.appendF b!"f" b!"a" [b!"b"])), List.mem_cons_self .., by simp⟩ rfl h
  have o7 : Origin Ex.H goodBlames b!"c4" b!"g" 0 b!"c2" :=
    .mergeKept m4 (by decide) (nb _ _) (by intro x hx; simp only [HCommit.changesAt, Ex.c4, List.zip_cons_cons, List.zip_nil_right, List.map_cons, List.map_nil, List.mem_cons, List.not_mem_nil, or_false] at hx; rcases hx with rfl | rfl <;> exact (by simp [changeOf, Ex.appendF, Ex.createF, Kind.next])) (pre := []) (q := b!"c2") (f := Ex.appendF b!"g" b!"x" [b!"y"]) rfl (by simp) (i := 0) (by decide) o3
  have o8 : Origin Ex.H goodBlames b!"c4" b!"g" 1 b!"c4" := .mergeAdded m4 (by decide) (nb _ _) (by decide)
  have o9 : ∀ j o, Origin Ex.H goodBlames b!"c4" b!"g" j o → Origin Ex.H goodBlames b!"c5" b!"g" j o := fun j o h => .untouched m5 rfl rfl (nb _ _) rfl h
  have fin : ∀ c p (j : Nat) o o', (goodBlames c p)[j]? = some o → Origin Ex.H goodBlames c p j o → Origin Ex.H goodBlames c p j o' → (goodBlames c p)[j]? = some o' := by
    intro c p j o o' h1 h2 h3
    rw [origin_unique Ex.history_ok h3 h2]; exact h1
  apply ex_files (Q := fun c p n => ∀ (j : Nat) o, j < n.length → Origin Ex.H goodBlames c.hash p j o → (goodBlames c.hash p)[j]? = some o)
  · intro j o hj h
    match j, hj with
    | 0, _ => exact fin _ _ _ _ _ rfl o1 h
  · intro j o hj h
    match j, hj with
    | 0, _ => exact fin _ _ _ _ _ rfl o2 h
  · intro j o hj h
    match j, hj with
    | 0, _ => exact fin _ _ _ _ _ rfl o3 h
  · intro j o hj h
    match j, hj with
    | 0, _ => exact fin _ _ _ _ _ rfl o4 h
    | 1, _ => exact fin _ _ _ _ _ rfl o5 h
  · intro j o hj h
    match j, hj with
    | 0, _ => exact fin _ _ _ _ _ rfl (o6 _ _ o4) h
    | 1, _ => exact fin _ _ _ _ _ rfl (o6 _ _ o5) h
  · intro j o hj h
    match j, hj with
    | 0, _ => exact fin _ _ _ _ _ rfl o7 h
    | 1, _ => exact fin _ _ _ _ _ rfl o8 h
  · intro j o hj h
    match j, hj with
    | 0, _ => exact fin _ _ _ _ _ rfl (o9 _ _ o7) h
    | 1, _ => exact fin _ _ _ _ _ rfl (o9 _ _ o8) h

/-- The example history passes, whatever the order of the maps. -/
example (ord : Nat → List Str → List Str) : ∃ log, parseLog (logText (Ex.H.flatMap Ex.entries)) = .ok log ∧
    (validateRepo goodEnv.blameOut ord b!"repo" (run goodEnv {} (fun _ => .ok []) (Graph.newFromMap Ex.parents Ex.parents) log)).1.getLast? = some (.success b!"repo") := by
  obtain ⟨log, h1, _, _, h4⟩ := C64_history good_setting ex_log (by decide) (fun _ => .ok []) good_answers good_follows Ex.noTypeChange ord b!"repo"
  exact ⟨log, h1, h4⟩

/-- Two wrong files and the verdict. -/
example : (validateRepo (fun _ _ => some b!"c2 1 1 1\n\tint main(void) {\n") (fun _ l => l) b!"repo"
    { sent := [{ commit := b!"c2", files := [(b!"f", { commit := b!"c2", lines := [{ line := b!"int main(void) {", commit := b!"c1" }] }), (b!"g", { commit := b!"c2", lines := [{ line := b!"x", commit := b!"c2" }] })] }],
      fault := none, written := none }).1 =
    [.running b!"repo", .checkingCommit b!"c2", .checkingFile b!"c2" b!"f", .invalidCommit 0, .checkingFile b!"c2" b!"g", .invalidContent 0, .success b!"repo"] := by decide

end Ripsrc
