import Verif.Go.Split
/-!
# The default logger (`/repo/ripsrc/pkg/logger/logger.go`)

Any number of goroutines call `Info` and `Debug` of one `DefaultLogger`. What `fmt.Sprintf("%v", x)` prints for a value `x` that is not a string is a parameter
(a text; a `String` method that panics or that calls the logger itself is not modelled).
-/
namespace Ripsrc

/-- One of the `args ...interface{}` of a call: a string, or a value of another type, which `%v` prints as `text`. -/
inductive LogArg where
  | str (s : Str)
  | other (text : Str)
deriving DecidableEq

/-- `%v` of one argument. -/
def LogArg.text : LogArg → Str
  | .str s => s
  | .other t => t

/-- The loop of `formatArgs` (`/repo/ripsrc/pkg/logger/logger.go:64-71`); called only with an even number of arguments. -/
def formatPairs : List LogArg → Go (List (Str × Str))
  | .str k :: v :: rest => do
    let kvs ← formatPairs rest
    .ok ((k, v.text) :: kvs)
  | .other _ :: _ => .error (.error "key arg passes in not a string")
  | _ => .ok []

/-- `formatArgs` (`/repo/ripsrc/pkg/logger/logger.go:60-73`). -/
def formatArgs (args : List LogArg) : Go (List (Str × Str)) :=
  if args.length % 2 ≠ 0 then .error (.error "len of args not even") else formatPairs args

/-- `%v` of a slice whose elements print as `xs`: `[x1 x2 ...]`. -/
def fmtSlice (xs : List Str) : Str := b!"[" ++ joinWith b!" " xs ++ b!"]"

/-- `%v` of the struct `kv` (`/repo/ripsrc/pkg/logger/logger.go:55-58`): `{k v}`. -/
def fmtKv (p : Str × Str) : Str := b!"{" ++ p.1 ++ b!" " ++ p.2 ++ b!"}"

/-- The text of the two errors of `formatArgs`. -/
def fmtArgsErr : Fault → Str
  | .error "len of args not even" => b!"len of args not even"
  | _ => b!"key arg passes in not a string"

/-- A call of `Info` (`/repo/ripsrc/pkg/logger/logger.go:26-28`) or `Debug` (`/repo/ripsrc/pkg/logger/logger.go:30-32`). -/
structure LogCall where
  debug : Bool
  msg : Str
  args : List LogArg
deriving DecidableEq

/-- The argument `kind` of `log` (`/repo/ripsrc/pkg/logger/logger.go:27,31`). -/
def LogCall.kind (c : LogCall) : Str := if c.debug then b!"DEBUG" else b!"INFO"

/-- The texts for which `log` calls `write` (`/repo/ripsrc/pkg/logger/logger.go:48-52`); after an error of `formatArgs`, `kvs` is nil. -/
def logTexts (c : LogCall) : List Str :=
  match formatArgs c.args with
  | .error e => [b!"ERROR Logger invalid args passed. Msg: " ++ c.msg ++ b!" Args: " ++ fmtSlice (c.args.map LogArg.text) ++ b!" Err: " ++ fmtArgsErr e,
      c.kind ++ b!" " ++ c.msg ++ b!" " ++ fmtSlice []]
  | .ok kvs => [c.kind ++ b!" " ++ c.msg ++ b!" " ++ fmtSlice (kvs.map fmtKv)]

/-- Where a goroutine is in `write` (`/repo/ripsrc/pkg/logger/logger.go:35-47`). -/
inductive LogPc where
  /-- not in `write`, or before `s.mu.Lock()` -/
  | free
  /-- `mu` is locked, the text is not yet written -/
  | locked
  /-- the text is written -/
  | text
  /-- the newline is written, `mu` still locked -/
  | newline
  /-- `panic(err)` after an error of the writer; the deferred `s.mu.Unlock()` has been called -/
  | dead
deriving DecidableEq

/-- A goroutine: the calls of the logger it will still make, the texts the current call of `log` has still to write (the first one is the one `write` was
called with) and its place in `write`. -/
structure LogThread where
  calls : List LogCall
  texts : List Str := []
  pc : LogPc := .free

/-- All goroutines, what the `io.Writer` has got, and whether `mu` is locked. -/
structure LogSt where
  threads : List LogThread
  out : Str := []
  mu : Bool := false

/-- Goroutine `i` becomes `t`. -/
def LogSt.put (s : LogSt) (i : Nat) (t : LogThread) : LogSt := { s with threads := s.threads.set i t }

/-- One step of one goroutine (`/repo/ripsrc/pkg/logger/logger.go:34-53`). `sync.Mutex`: `Lock` waits until `mu` is free. -/
inductive LogStep : LogSt → LogSt → Prop where
  /-- the goroutine calls `Info` or `Debug` -/
  | call {s : LogSt} (i : Nat) (t : LogThread) (c : LogCall) (cs : List LogCall) (h : s.threads[i]? = some t) (hp : t.pc = .free) (hx : t.texts = []) (hc : t.calls = c :: cs) :
      LogStep s (s.put i { t with calls := cs, texts := logTexts c })
  /-- `s.mu.Lock()` -/
  | lock {s : LogSt} (i : Nat) (t : LogThread) (h : s.threads[i]? = some t) (hp : t.pc = .free) (hx : t.texts ≠ []) (hm : s.mu = false) :
      LogStep s { s.put i { t with pc := .locked } with mu := true }
  /-- `s.wr.Write([]byte(p))` without an error -/
  | text {s : LogSt} (i : Nat) (t : LogThread) (x : Str) (xs : List Str) (h : s.threads[i]? = some t) (hp : t.pc = .locked) (hx : t.texts = x :: xs) :
      LogStep s { s.put i { t with pc := .text } with out := s.out ++ x }
  /-- an error of `s.wr.Write([]byte(p))`: a part `p` of the text was written; `panic(err)`, `s.mu.Unlock()` -/
  | textErr {s : LogSt} (i : Nat) (t : LogThread) (p q : Str) (xs : List Str) (h : s.threads[i]? = some t) (hp : t.pc = .locked) (hx : t.texts = (p ++ q) :: xs) :
      LogStep s { s.put i { t with pc := .dead } with out := s.out ++ p, mu := false }
  /-- `s.wr.Write([]byte("\n"))` without an error -/
  | newline {s : LogSt} (i : Nat) (t : LogThread) (h : s.threads[i]? = some t) (hp : t.pc = .text) :
      LogStep s { s.put i { t with pc := .newline } with out := s.out ++ [10] }
  /-- an error of `s.wr.Write([]byte("\n"))`; `panic(err)`, `s.mu.Unlock()` -/
  | newlineErr {s : LogSt} (i : Nat) (t : LogThread) (h : s.threads[i]? = some t) (hp : t.pc = .text) :
      LogStep s { s.put i { t with pc := .dead } with mu := false }
  /-- the deferred `s.mu.Unlock()`; `write` returns -/
  | unlock {s : LogSt} (i : Nat) (t : LogThread) (h : s.threads[i]? = some t) (hp : t.pc = .newline) :
      LogStep s { s.put i { t with pc := .free, texts := t.texts.tail } with mu := false }

/-- `n` steps. -/
inductive LogSteps : Nat → LogSt → LogSt → Prop where
  | refl {s} : LogSteps 0 s s
  | snoc {n s t u} : LogSteps n s t → LogStep t u → LogSteps (n + 1) s u

/-- `NewDefaultLogger` (`/repo/ripsrc/pkg/logger/logger.go:20-24`), and goroutines that will make the calls `progs`. -/
def logInit (progs : List (List LogCall)) : LogSt := { threads := progs.map fun cs => { calls := cs } }

end Ripsrc
