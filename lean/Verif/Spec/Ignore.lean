import Verif.Go.Space
/-!
# Specification: the exclusion list

Which paths are excluded, in plain words, and what a line of the patterns file means.
-/
namespace Ripsrc.Spec

/-- Excluded if they occur anywhere in the path. -/
def anywhere : List Str :=
  [
   b!"Godeps", b!"vendor/", b!"node_modules", b!".webpack", b!".vscode/", b!".ipynb_checkpoints", b!"proguard", b!"__pycache__", b!".circleci",
   b!".github", b!"LICENSE", b!"README", b!"AUTHORS", b!"CHANGELOG", b!"CHANGES", b!"DCO", b!"CONTRIBUTING", b!"VERSION", b!"CODE_OF_CONDUCT",
   b!"COPYING", b!"ISSUE_TEMPLATE", b!"NOTICE", b!"MAINTAINERS"]

/-- Excluded if the path ends with them. -/
def endings : List Str :=
  [
   b!"Gopkg.lock", b!"Gopkg.toml", b!"glide.lock", b!"glide.yaml", b!"/go.mod", b!"/go.sum", b!"Cargo.toml", b!"Gemfile", b!".gemspec",
   b!"package.json", b!"package-lock.json", b!"yarn.lock", b!".babelrc", b!".babelrc.js", b!"babel.config.js", b!".flowconfig", b!".eslintrc.js",
   b!".eslintrc.json", b!".eslintrc", b!".eslintignore", b!".npmrc", b!".bowerrc", b!".jshintrc", b!"jsconfig.json", b!"tsconfig.json",
   b!"lerna.json", b!"tslint.yaml", b!"tslint.json", b!".angular-cli.json", b!"gulpfile.js", b!".jsbeautifyrc", b!".arc", b!".prettierignore",
   b!"mocha.opts", b!"Gruntfile", b!"-min.js", b!".min.js", b!"-min.css", b!".min.css", b!".js.map", b!".css.map", b!".class", b!".project",
   b!".jar", b!"dexguard-project-debug.txt", b!"dexguard-project-release.txt", b!".pyc", b!".flake8", b!".pylintrc", b!"tox.ini", b!".pydevproject",
   b!"circle.yml", b!".travis.yml", b!".shippable.yml", b!".codecov.yml", b!"CMakeLists.txt", b!".gitlab-ci.yml", b!".drone.yml", b!"appveyor.yml",
   b!".codeclimate.yml", b!".dockerignore", b!".npmignore", b!".cmake.in", b!"Makefile.in", b!"Jenkinsfile", b!".ar", b!".zip", b!".gz", b!".gzip",
   b!".Z", b!".tar", b!".bz2", b!".cab", b!".crx", b!".lz", b!".7z", b!".bzip", b!".bson", b!".nupkg", b!".eps", b!".ps", b!".gif", b!".png",
   b!".jpg", b!".jpeg", b!".ttf", b!".svg", b!".webp", b!".bmp", b!".ico", b!".psd", b!".tif", b!".tiff", b!".xcf", b!".ai", b!".sketch", b!".icns",
   b!".icc", b!".Ppdf", b!".doc", b!".xls", b!".docx", b!".docm", b!".dot", b!".dotm", b!".xlsx", b!".ppt", b!".pptx", b!".rtf", b!".mpg", b!".mp3",
   b!".mp4", b!".ogg", b!".avi", b!".mov", b!".fla", b!".flv", b!".midi", b!".wmf", b!".woff", b!".woff2", b!".eot", b!".otf", b!".a", b!".o",
   b!".dylib", b!".dll", b!".so", b!".pch", b!".tlb", b!".pdb", b!".ipdb", b!".ldf", b!".ndf", b!".plg", b!".h.in", b!".lib", b!".la",
   b!".llblgenproj", b!".out", b!".app", b!".sqlite", b!".mdf", b!".sdf", b!".pem", b!".p12", b!".pfx", b!".asc", b!".pkcs12", b!".ipr", b!".iws",
   b!".iml", b!".sln", b!".csproj", b!".vbproj", b!".fsproj", b!".dbproj", b!".deb", b!".elf", b!".jxr", b!".bin", b!".swf", b!".example", b!".log",
   b!".mailmap", b!".editorconfig", b!"robots.txt", b!".vscodeignore", b!".coveragerc", b!".settings", b!".bak", b!"Screengrabfile", b!".orc"]

/-- Excluded if the path begins with them. -/
def beginnings : List Str := [b!"dexguard/"]

/-- Excluded if they are the path. -/
def wholePaths : List Str := [b!"go.mod", b!"go.sum", b!"fastlane/Appfile", b!"fastlane/Fastfile", b!"build.gradle", b!"gradle.properties"]

/-- The excluded paths. -/
def Excluded (path : Str) : Prop :=
  (∃ w ∈ anywhere, w <:+: path) ∨ (∃ w ∈ endings, w <:+ path) ∨ (∃ w ∈ beginnings, w <+: path) ∨ path ∈ wholePaths

instance (path : Str) : Decidable (Excluded path) := by unfold Excluded; infer_instance

/-! ## Patterns -/

/-- A character of a pattern: itself, or `*`. -/
inductive PatChar where
  | lit (b : UInt8)
  | anything
deriving DecidableEq

/-- A pattern: perhaps tied to the beginning (`^`), perhaps tied to the end (`$`). -/
structure Pattern where
  atStart : Bool := false
  chars : List PatChar
  atEnd : Bool := false

def PatChar.byte : PatChar → UInt8
  | .lit b => b
  | .anything => 42

/-- How it is written. -/
def Pattern.text (p : Pattern) : Str := (if p.atStart then b!"^" else []) ++ p.chars.map PatChar.byte ++ (if p.atEnd then b!"$" else [])

/-- The characters match `s`: a dot is a dot, a star is anything without a line end. -/
inductive CharsMatch : List PatChar → Str → Prop where
  | nil : CharsMatch [] []
  | lit {b : UInt8} {l : List PatChar} {s : Str} : CharsMatch l s → CharsMatch (.lit b :: l) (b :: s)
  | anything {x : Str} {l : List PatChar} {s : Str} : 10 ∉ x → CharsMatch l s → CharsMatch (.anything :: l) (x ++ s)

/-- The pattern covers the path: a part of the path matches. -/
def Pattern.Covers (p : Pattern) (path : Str) : Prop :=
  ∃ pre mid post, path = pre ++ mid ++ post ∧ (p.atStart = true → pre = []) ∧ (p.atEnd = true → post = []) ∧ CharsMatch p.chars mid

/-- Blanks and tabs. -/
def Blank (s : Str) : Prop := ∀ b ∈ s, b = 32 ∨ b = 9

/-- A line of the patterns file. -/
inductive PatLine where
  | blank (ws : Str)
  | comment (ws : Str) (mark : UInt8) (text : Str)
  | pattern (ws : Str) (p : Pattern) (ws' : Str) (remark : Option Str)

def PatLine.text : PatLine → Str
  | .blank ws => ws
  | .comment ws mark t => ws ++ mark :: t
  | .pattern ws p ws' remark => ws ++ p.text ++ ws' ++ (match remark with | none => [] | some t => 35 :: t)

/-- Bytes with a meaning of their own: of the patterns file (`#`), of regular expressions, of the Go literal (a back quote), and `*` which is written `anything`. -/
def special : Str := b!"\\^$|()[]{}?+*#`\n\r"

/-- ASCII without special bytes; begins with neither white space nor `!`, does not end with white space. -/
structure PatternOk (p : Pattern) : Prop where
  plain : ∀ b, PatChar.lit b ∈ p.chars → b < 128 ∧ b ∉ special
  trimmed : Trimmed p.text
  first : p.text ≠ [] ∧ p.text.head? ≠ some 33

def PatLineOk : PatLine → Prop
  | .blank ws => Blank ws
  | .comment ws mark t => Blank ws ∧ (mark = 35 ∨ mark = 33) ∧ NoNL t
  | .pattern ws p ws' remark => Blank ws ∧ PatternOk p ∧ Blank ws' ∧ ∀ t, remark = some t → NoNL t

def PatLine.pattern? : PatLine → Option Pattern
  | .pattern _ p _ _ => some p
  | _ => none

end Ripsrc.Spec
