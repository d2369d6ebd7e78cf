import Verif.Go.Map
import Verif.Go.Sort
import Verif.Go.Num
/-!
# ripsrc/fileinfo: which files are processed

`enry` (language and path classification), the regular expression of gitignore.go and the licence database are parameters (`Classifier`): the
properties hold for every behaviour of them.
-/
namespace Ripsrc

/-- `License` (`/repo/ripsrc/fileinfo/license.go:6-9`). A confidence is only compared, so it is modelled by a natural number on some scale. -/
structure License where
  name : Str
  confidence : Nat
deriving DecidableEq, Repr

/-- What `licensedb.Detect` may answer (`/repo/ripsrc/fileinfo/license_enabled.go:44-51`): an error, `ErrNoLicenseFound`, or a map from names to confidences. -/
inductive LicenseAnswer where
  | failed
  | notFound
  | found (kv : GoMap Str Nat)

/-- The external classifiers. -/
structure Classifier where
  /-- `enry.IsConfiguration` -/
  isConfig : Str → Bool
  /-- `enry.IsDotFile` -/
  isDot : Str → Bool
  /-- `ignorePatterns.MatchString` (`/repo/ripsrc/fileinfo/gitignore.go:7`) -/
  ignored : Str → Bool
  /-- `enry.IsVendor` -/
  isVendor : Str → Bool
  /-- `enry.GetLanguage` -/
  language : Str → Str → Str
  /-- `licensedb.Detect` on one file -/
  licenseDb : Str → Str → LicenseAnswer
  /-- `minConfidenceLevel` (`/repo/ripsrc/fileinfo/license_enabled.go:37`), on the scale of the confidences -/
  minConfidence : Nat
  /-- the iteration order over the map of matches (`/repo/ripsrc/fileinfo/license_enabled.go:54-56`) -/
  mapOrder : GoMap Str Nat → GoMap Str Nat
  /-- `sort.Slice`, not stable (`/repo/ripsrc/fileinfo/license_enabled.go:58-60`) -/
  sortMatches : List License → List License

/-- The words of the regular expression `licenses` without `LICENSE-.*` (`/repo/ripsrc/fileinfo/license.go:11`). -/
def licenseWords : List Str := [b!"LICENSE", b!"LICENCE", b!"README", b!"COPYING", b!"UNLICENSE", b!"UNLICENCE"]

/-- The optional extension `(\.(md|txt))?` (`/repo/ripsrc/fileinfo/license.go:11`). -/
def licenseExts : List Str := [b!"", b!".md", b!".txt"]

/-- One of the words, with an optional extension, up to the end of the text; or `LICENSE-` followed by anything but newlines up to the end
(`.*` also covers the extension). (`/repo/ripsrc/fileinfo/license.go:11`) -/
def licenseTail (s : Str) : Bool :=
  licenseWords.any (fun w => licenseExts.any (fun e => s == w ++ e)) || (startsWith s b!"LICENSE-" && !(s.drop 8).contains 10)

/-- `possibleLicense` (`/repo/ripsrc/fileinfo/license.go:13-15`): the expression is not anchored on the left, so it may match at any position; the optional slash in front
never changes whether there is a match. -/
def possibleLicense : Str → Bool
  | [] => licenseTail []
  | b :: s => licenseTail (b :: s) || possibleLicense s

/-- `matches[i].Confidence > matches[j].Confidence` as a "may come first" (`/repo/ripsrc/fileinfo/license_enabled.go:58-60`). -/
def confGe (a b : License) : Bool := !decide (b.confidence > a.confidence)

/-- `detect` (`/repo/ripsrc/fileinfo/license_enabled.go:41-67`); with the build tag `no_license` it is constantly "none" (`/repo/ripsrc/fileinfo/license_disabled.go:7-9`). -/
def detectLicense (cl : Classifier) (path content : Str) : Go (Option License) :=
  match cl.licenseDb path content with
  | .failed => .error (.error "licensedb")
  | .notFound => .ok none
  | .found kv =>
    if kv.length > 0 then
      match cl.sortMatches ((cl.mapOrder kv).map (fun e => ⟨e.1, e.2⟩)) with
      | [] => .ok none
      | m :: _ => if m.confidence ≥ cl.minConfidence then .ok (some m) else .ok none
    else .ok none

/-- `Process.isVendored` (`/repo/ripsrc/fileinfo/fileinfo.go:124-136`). -/
def isVendored (cl : Classifier) (path : Str) : Bool :=
  if cl.isVendor path then
    if startsWith path b!"src/" then false else true
  else false

/-- `checkFilePathUncached` (`/repo/ripsrc/fileinfo/fileinfo.go:108-122`); the texts are those of lines 20-30. -/
def checkFilePathUncached (cl : Classifier) (path : Str) : Str :=
  if cl.isConfig path then b!"File was a config file"
  else if cl.isDot path then b!"File was a dot file"
  else if cl.ignored path then b!"File was on an exclusion list"
  else if isVendored cl path then b!"File was a vendored file"
  else []

/-- `checkFilePath` with its cache (`/repo/ripsrc/fileinfo/fileinfo.go:99-106`). -/
def checkFilePath (cl : Classifier) (cache : GoMap Str Str) (path : Str) : Str × GoMap Str Str :=
  match GoMap.get cache path with
  | some res => (res, cache)
  | none =>
    let res := checkFilePathUncached cl path
    (res, GoMap.set cache path res)

/-- `InfoArgs` (`/repo/ripsrc/fileinfo/fileinfo.go:32-36`). -/
structure InfoArgs where
  path : Str
  lines : List Str
  content : Str

/-- `Info` (`/repo/ripsrc/fileinfo/fileinfo.go:38-42`); the field `SkipReason` is never set. -/
structure Info where
  language : Str := []
  license : Option License := none
deriving DecidableEq, Repr

/-- `maxFileSize` (`/repo/ripsrc/fileinfo/fileinfo.go:47`). -/
def maxFileSize : Nat := 1000000
/-- `maxLinePerFile` (`/repo/ripsrc/fileinfo/fileinfo.go:52`). -/
def maxLinePerFile : Nat := 40000
/-- `maxBytesPerLine` (`/repo/ripsrc/fileinfo/fileinfo.go:57`). -/
def maxBytesPerLine : Nat := 1096

/-- The loop over the lines (`/repo/ripsrc/fileinfo/fileinfo.go:85-89`): the length of the first line that is too long. -/
def longLine : List Str → Option Nat
  | [] => none
  | l :: ls => if l.length > maxBytesPerLine then some l.length else longLine ls

/-- The part of `GetInfo` after the path check (`/repo/ripsrc/fileinfo/fileinfo.go:81-97`). -/
def getInfoContent (cl : Classifier) (args : InfoArgs) : Info × Str :=
  if args.lines.length > maxLinePerFile then ({}, b!"File has more than 40000 lines")
  else match longLine args.lines with
    | some n => ({}, b!"File has a line width of " ++ (itoa n ++ b!" which is greater than max of 1096"))
    | none =>
      let lang := cl.language args.path args.content
      if lang = [] then ({}, b!"Language was unknown") else ({ language := lang }, [])

/-- The licence check of `GetInfo` (`/repo/ripsrc/fileinfo/fileinfo.go:66-75`): a failing database is a panic. -/
def licenseOf (cl : Classifier) (args : InfoArgs) : Go (Option License) :=
  if possibleLicense args.path then
    match detectLicense cl args.path args.content with
    | .ok l => .ok l
    | .error _ => .error (.panic "licence detection failed")
  else .ok none

/-- `GetInfo` (`/repo/ripsrc/fileinfo/fileinfo.go:59-97`): the answer, the reason, the new cache. -/
def getInfo (cl : Classifier) (cache : GoMap Str Str) (args : InfoArgs) : Go ((Info × Str) × GoMap Str Str) :=
  let fileSize := args.content.length
  if fileSize > maxFileSize then
    .ok (({}, b!"File size was " ++ (itoa (fileSize / 1000) ++ b!"K which exceeds limit of 1000K")), cache)
  else do
    let lic ← licenseOf cl args
    match lic with
    | some l => .ok (({ license := some l }, b!"File is a license file"), cache)
    | none =>
      let (skip, cache) := checkFilePath cl cache args.path
      if skip ≠ [] then .ok (({}, skip), cache)
      else .ok (getInfoContent cl args, cache)

/-- A sequence of calls on one `Process`, beginning with the cache of `New` (`/repo/ripsrc/fileinfo/fileinfo.go:14-18`). A panic ends it. -/
def getInfos (cl : Classifier) (cache : GoMap Str Str) : List InfoArgs → Go (List (Info × Str))
  | [] => .ok []
  | a :: as => do
    let (r, cache) ← getInfo cl cache a
    let rs ← getInfos cl cache as
    return r :: rs

end Ripsrc
