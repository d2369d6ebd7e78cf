import Verif.Go.Bytes
/-!
# ripsrc/pkg/gitrepos: search for repositories in a directory tree
-/
namespace Ripsrc

/-- What `os.Stat` finds behind a symbolic link. -/
inductive LinkTo where
  | missing | file | dir | fault
deriving DecidableEq, Repr

mutual
/-- A part of the file system. A directory may refuse that its entries are looked up (`lookup = false`: `os.Stat` of an entry fails) or listed
(`list = false`: `ioutil.ReadDir` fails). Its entries are in the order of `ReadDir`. -/
inductive Node where
  | file
  | link (to : LinkTo)
  | dir (lookup list : Bool) (es : Entries)
/-- The entries of a directory. -/
inductive Entries where
  | nil
  | cons (name : Str) (n : Node) (rest : Entries)
end

/-- A path relative to the first directory: `filepath.Join` adds a component (`/repo/ripsrc/pkg/gitrepos/gitrepos.go:64`). -/
abbrev RelPath := List Str

/-- The entry with a name. -/
def Entries.find : Entries → Str → Option Node
  | .nil, _ => none
  | .cons x n rest, name => if x = name then some n else rest.find name

/-- `dirContainsDir` (`/repo/ripsrc/pkg/gitrepos/gitrepos.go:73-87`): `os.Stat` follows links. A lookup that fails with anything but "does not exist" is an error. -/
def dirContainsDir (lookup : Bool) (es : Entries) (sub : Str) : Go Bool :=
  if lookup = false then .error (.error "can't check if dir contains")
  else match es.find sub with
    | none => .ok false
    | some .file => .ok false
    | some (.dir _ _ _) => .ok true
    | some (.link .dir) => .ok true
    | some (.link .fault) => .error (.error "can't check if dir contains")
    | some (.link _) => .ok false

/-- `filepath.Ext` of the last element of a path: from the last dot. -/
def ext : Str → Str
  | [] => []
  | b :: s => if s.contains 46 then ext s else if b = 46 then b :: s else []

/-- Calls of the callback made so far, and the error with which the search ended. -/
abbrev Search := List RelPath × Option Fault

/-- Calls the callback (`/repo/ripsrc/pkg/gitrepos/gitrepos.go:26-30,44-47`). `cb` may depend on the earlier calls; `false` is an error. -/
def callCb (cb : List RelPath → RelPath → Bool) (calls : List RelPath) (p : RelPath) : Search :=
  (calls ++ [p], if cb calls p then none else some (.error "callback"))

/-- Continues unless there was an error. -/
def Search.andThen (s : Search) (f : List RelPath → Search) : Search :=
  match s.2 with
  | some e => (s.1, some e)
  | none => f s.1

mutual
/-- `IterDir` (`/repo/ripsrc/pkg/gitrepos/gitrepos.go:10-71`) on the directory `path` with the last name `name`. `filepath.Abs` does not fail. -/
def iterDir (cb : List RelPath → RelPath → Bool) (name : Str) (path : RelPath) (maxRecursion : Int) (calls : List RelPath) : Node → Search
  | .file => (calls, some (.error "passed dir is a file, expecting a dir"))
  | .link _ => (calls, some (.error "not a directory"))
  | .dir lookup list es =>
    match dirContainsDir lookup es b!".git" with
    | .error e => (calls, some e)
    | .ok true => callCb cb calls path
    | .ok false =>
      let s : Search :=
        if ext name = b!".git" then
          match dirContainsDir lookup es b!"objects" with
          | .error e => (calls, some e)
          | .ok true => callCb cb calls path
          | .ok false => (calls, none)
        else (calls, none)
      s.andThen (fun calls =>
        if maxRecursion = 0 then (calls, none)
        else if list = false then (calls, some (.error "can't read passed dir"))
        else iterSubs cb path maxRecursion calls es)
/-- The loop over the entries (`/repo/ripsrc/pkg/gitrepos/gitrepos.go:60-68`): `sub.IsDir()` is false for links. -/
def iterSubs (cb : List RelPath → RelPath → Bool) (path : RelPath) (maxRecursion : Int) (calls : List RelPath) : Entries → Search
  | .nil => (calls, none)
  | .cons x (.dir l r es) rest =>
    (iterDir cb x (path ++ [x]) (maxRecursion - 1) calls (.dir l r es)).andThen (fun calls => iterSubs cb path maxRecursion calls rest)
  | .cons _ _ rest => iterSubs cb path maxRecursion calls rest
end

end Ripsrc
