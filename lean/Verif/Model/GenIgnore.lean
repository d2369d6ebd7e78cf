import Verif.Model.Regexp
import Verif.Model.BranchMeta
/-!
# The generator of the exclusion list, and the list

`/repo/genignore.go` reads `/repo/custom_patterns.txt` and writes `/repo/ripsrc/fileinfo/gitignore.go`. `findFiles` (lines 24-34) is not called. The texts of the two
files are copied here; `/verif/tools/check_texts.py` compares the copies with the files.
-/
namespace Ripsrc

/-- `format` : `/repo/genignore.go:36-40`. -/
def ignoreFormat (line : Str) : Str :=
  let line := line.flatMap (fun b => if b = 46 then b!"\\." else [b])
  line.flatMap (fun b => if b = 42 then b!"(.*?)" else [b])

/-- One line in the loop of `parseFile` : `/repo/genignore.go:59-67`, without its newline. The checks `line == "\n"` and `line[0] == '\t'` never hold for a
trimmed line. -/
def ignoreLine (line : Str) : Option Str :=
  let line := trimSpace line
  match line with
  | [] => none
  | c :: _ =>
    if c = 35 ∨ c = 33 ∨ c = 9 then none
    else
      let i := line.idxOf 35
      let line := if 0 < i ∧ i < line.length then trimSpace (line.take i) else line
      some (ignoreFormat line)

/-- The lines that `ReadString('\n')` returns before the end of the file; what comes after the last newline is returned with `io.EOF`, where the loop stops. -/
def completeLines (data : Str) : List Str := (splitByte 10 data).dropLast

/-- `parseFile` on the contents of the file : `/repo/genignore.go:42-69`. -/
def ignoreParseFile (data : Str) : List Str := (completeLines data).filterMap ignoreLine

/-- `regstr` without the quotes : `/repo/genignore.go:82`. -/
def ignoreRegstr (data : Str) : Str := b!"(" ++ joinWith b!"|" (ignoreParseFile data) ++ b!")"

/-- `main` : `/repo/genignore.go:71-94`: the contents of the written file. `compiles` tells whether `regexp.MustCompile` accepts an expression; it is given the
expression with the quotes around it (line 83). -/
def genIgnore (compiles : Str → Bool) (data : Str) : Go Str :=
  let regstr := b!"`" ++ ignoreRegstr data ++ b!"`"
  if compiles regstr then
    .ok (b!"// DO NOT EDIT -- generated code\n\npackage fileinfo\n\nimport \"regexp\"\n\nvar ignorePatterns = regexp.MustCompile(" ++ regstr ++ b!")\n")
  else .error (.panic "regexp.MustCompile")

/-- The lines of `/repo/custom_patterns.txt:1-248`. -/
def customLines : List Str :=
  [
   b!"# custom patterns to ignore (in addition) to all from github/gitignore", b!"", b!"# golang", b!"Godeps", b!"vendor/", b!"Gopkg.lock$",
   b!"Gopkg.toml$", b!"glide.lock$", b!"glide.yaml$", b!"(^|/)go.mod$", b!"(^|/)go.sum$", b!"", b!"# rust", b!"Cargo.toml$", b!"", b!"# ruby",
   b!"Gemfile$", b!".gemspec$", b!"", b!"# nodejs", b!"node_modules", b!".webpack", b!"package.json$", b!"package-lock.json$", b!"yarn.lock$",
   b!".babelrc$", b!".babelrc.js$", b!"babel.config.js$", b!".flowconfig$", b!".eslintrc(.js|.json)?$", b!".eslintignore$", b!".npmrc$",
   b!".bowerrc$", b!".jshintrc$", b!"jsconfig.json$", b!"tsconfig.json$", b!"lerna.json$", b!"tslint.(yaml|json)$", b!".vscode/",
   b!".angular-cli.json$", b!"gulpfile.js$", b!".jsbeautifyrc$", b!".arc$", b!".prettierignore$", b!"mocha.opts$", b!"Gruntfile$", b!"",
   b!"# web compressed", b!"[-.]min.js$", b!"[-.]min.css$", b!".js.map$", b!".css.map$", b!"", b!"# Jupyter notebook checkpoint file",
   b!".ipynb_checkpoints", b!"", b!"# Java", b!"proguard", b!".class$", b!".project$", b!".jar$", b!"^dexguard/",
   b!"dexguard-project-(debug|release).txt$", b!"", b!"# python", b!"__pycache__", b!".pyc$", b!".flake8$", b!".pylintrc$", b!"tox.ini$",
   b!".pydevproject$", b!"", b!"# build systems", b!".circleci", b!"circle.yml$", b!".github", b!".travis.yml$", b!"vendor/bundle", b!"vendor/cache",
   b!".shippable.yml$", b!".codecov.yml$", b!"CMakeLists.txt$", b!".gitlab-ci.yml$", b!".drone.yml$", b!".codecov.yml$", b!"appveyor.yml$",
   b!".codeclimate.yml$", b!".dockerignore$", b!".npmignore$", b!".cmake.in$", b!"Makefile.in$", b!"Jenkinsfile$", b!"^fastlane/Appfile$",
   b!"^fastlane/Fastfile$", b!"^build.gradle$", b!"^gradle.properties$", b!"", b!"# misc files", b!"LICENSE(.md|.txt|.rst)?",
   b!"README(.md|.txt|.rst)?", b!"AUTHORS(.md|.txt|.rst)?", b!"CHANGELOG(.md|.txt|.rst)?", b!"CHANGES(.md|.txt|.rst)?", b!"DCO(.md|.txt|.rst)?",
   b!"CONTRIBUTING(.md|.txt|.rst)?", b!"VERSION(.md|.txt|.rst)?", b!"CODE_OF_CONDUCT(.md|.txt|.rst)?", b!"COPYING(.md|.txt|.rst)?",
   b!"ISSUE_TEMPLATE(.md|.txt|.rst)?", b!"NOTICE(.md|.txt|.rst)?", b!"MAINTAINERS(.md|.txt|.rst)?", b!"", b!"# compressed files", b!".ar$",
   b!".zip$", b!".gz$", b!".gzip$", b!".Z$", b!".tar$", b!".bz2$", b!".cab$", b!".crx$", b!".lz$", b!".7z$", b!".bzip$", b!".bson$", b!".nupkg$",
   b!"", b!"# image files", b!".eps$", b!".ps$", b!".gif$", b!".png$", b!".jpg$", b!".jpeg$", b!".ttf$", b!".svg$", b!".webp$", b!".bmp$", b!".ico$",
   b!".psd$", b!".tif$", b!".tiff$", b!".xcf$", b!".ico$", b!".psd$", b!".ai$", b!".sketch$", b!".icns$", b!".icc$", b!"", b!"# doc files",
   b!".[P]pdf$", b!".doc$", b!".xls$", b!".docx$", b!".docm$", b!".dot$", b!".dotm$", b!".xlsx$", b!".ppt$", b!".pptx$", b!".rtf$", b!"",
   b!"# audio/video files", b!".mpg$", b!".mp3$", b!".mp4$", b!".ogg$", b!".avi$", b!".mov$", b!".fla$", b!".flv$", b!".midi$", b!".wmf$", b!"",
   b!"# font files", b!".woff$", b!".woff2$", b!".eot$", b!".otf$", b!"", b!"# compiler files", b!".a$", b!".o$", b!".dylib$", b!".dll$", b!".so$",
   b!".pch$", b!".tlb$", b!".pdb$", b!".ipdb$", b!".nupkg$", b!".ldf$", b!".ndf$", b!".plg$", b!".h.in$", b!".lib$", b!".la$", b!".llblgenproj$",
   b!".out$", b!".app$", b!"", b!"# database files", b!".sqlite$", b!".mdf$", b!".sdf$", b!"", b!"# crypto related files", b!".pem$", b!".p12$",
   b!".pfx$", b!".asc$", b!".pkcs12$", b!"", b!"# idea", b!".ipr$", b!".iws$", b!".iml$", b!"", b!"# visual studio", b!".sln$", b!".csproj$",
   b!".vbproj$", b!".fsproj$", b!".dbproj$", b!"", b!"# misc files", b!".deb$", b!".elf$", b!".jxr$", b!".bin$", b!".swf$", b!".bin$", b!".example$",
   b!".log$", b!".mailmap$", b!".editorconfig$", b!"robots.txt$", b!".vscodeignore$", b!".coveragerc$", b!".settings$", b!".project$", b!".bak$",
   b!"Screengrabfile$", b!"", b!"# compressed storage", b!".orc$"]

/-- The rest of `/repo/custom_patterns.txt:249`: not terminated by a newline. -/
def customRest : Str := b!".parquet$"

/-- `/repo/custom_patterns.txt:1-249`. -/
def customPatterns : Str := customLines.flatMap (fun l => l ++ [10]) ++ customRest

/-- The alternatives in `/repo/ripsrc/fileinfo/gitignore.go:7`. -/
def ignoreAlts : List Str :=
  [
   b!"Godeps", b!"vendor/", b!"Gopkg\\.lock$", b!"Gopkg\\.toml$", b!"glide\\.lock$", b!"glide\\.yaml$", b!"(^|/)go\\.mod$", b!"(^|/)go\\.sum$",
   b!"Cargo\\.toml$", b!"Gemfile$", b!"\\.gemspec$", b!"node_modules", b!"\\.webpack", b!"package\\.json$", b!"package-lock\\.json$",
   b!"yarn\\.lock$", b!"\\.babelrc$", b!"\\.babelrc\\.js$", b!"babel\\.config\\.js$", b!"\\.flowconfig$", b!"\\.eslintrc(\\.js|\\.json)?$",
   b!"\\.eslintignore$", b!"\\.npmrc$", b!"\\.bowerrc$", b!"\\.jshintrc$", b!"jsconfig\\.json$", b!"tsconfig\\.json$", b!"lerna\\.json$",
   b!"tslint\\.(yaml|json)$", b!"\\.vscode/", b!"\\.angular-cli\\.json$", b!"gulpfile\\.js$", b!"\\.jsbeautifyrc$", b!"\\.arc$",
   b!"\\.prettierignore$", b!"mocha\\.opts$", b!"Gruntfile$", b!"[-\\.]min\\.js$", b!"[-\\.]min\\.css$", b!"\\.js\\.map$", b!"\\.css\\.map$",
   b!"\\.ipynb_checkpoints", b!"proguard", b!"\\.class$", b!"\\.project$", b!"\\.jar$", b!"^dexguard/", b!"dexguard-project-(debug|release)\\.txt$",
   b!"__pycache__", b!"\\.pyc$", b!"\\.flake8$", b!"\\.pylintrc$", b!"tox\\.ini$", b!"\\.pydevproject$", b!"\\.circleci", b!"circle\\.yml$",
   b!"\\.github", b!"\\.travis\\.yml$", b!"vendor/bundle", b!"vendor/cache", b!"\\.shippable\\.yml$", b!"\\.codecov\\.yml$", b!"CMakeLists\\.txt$",
   b!"\\.gitlab-ci\\.yml$", b!"\\.drone\\.yml$", b!"\\.codecov\\.yml$", b!"appveyor\\.yml$", b!"\\.codeclimate\\.yml$", b!"\\.dockerignore$",
   b!"\\.npmignore$", b!"\\.cmake\\.in$", b!"Makefile\\.in$", b!"Jenkinsfile$", b!"^fastlane/Appfile$", b!"^fastlane/Fastfile$",
   b!"^build\\.gradle$", b!"^gradle\\.properties$", b!"LICENSE(\\.md|\\.txt|\\.rst)?", b!"README(\\.md|\\.txt|\\.rst)?",
   b!"AUTHORS(\\.md|\\.txt|\\.rst)?", b!"CHANGELOG(\\.md|\\.txt|\\.rst)?", b!"CHANGES(\\.md|\\.txt|\\.rst)?", b!"DCO(\\.md|\\.txt|\\.rst)?",
   b!"CONTRIBUTING(\\.md|\\.txt|\\.rst)?", b!"VERSION(\\.md|\\.txt|\\.rst)?", b!"CODE_OF_CONDUCT(\\.md|\\.txt|\\.rst)?",
   b!"COPYING(\\.md|\\.txt|\\.rst)?", b!"ISSUE_TEMPLATE(\\.md|\\.txt|\\.rst)?", b!"NOTICE(\\.md|\\.txt|\\.rst)?",
   b!"MAINTAINERS(\\.md|\\.txt|\\.rst)?", b!"\\.ar$", b!"\\.zip$", b!"\\.gz$", b!"\\.gzip$", b!"\\.Z$", b!"\\.tar$", b!"\\.bz2$", b!"\\.cab$",
   b!"\\.crx$", b!"\\.lz$", b!"\\.7z$", b!"\\.bzip$", b!"\\.bson$", b!"\\.nupkg$", b!"\\.eps$", b!"\\.ps$", b!"\\.gif$", b!"\\.png$", b!"\\.jpg$",
   b!"\\.jpeg$", b!"\\.ttf$", b!"\\.svg$", b!"\\.webp$", b!"\\.bmp$", b!"\\.ico$", b!"\\.psd$", b!"\\.tif$", b!"\\.tiff$", b!"\\.xcf$", b!"\\.ico$",
   b!"\\.psd$", b!"\\.ai$", b!"\\.sketch$", b!"\\.icns$", b!"\\.icc$", b!"\\.[P]pdf$", b!"\\.doc$", b!"\\.xls$", b!"\\.docx$", b!"\\.docm$",
   b!"\\.dot$", b!"\\.dotm$", b!"\\.xlsx$", b!"\\.ppt$", b!"\\.pptx$", b!"\\.rtf$", b!"\\.mpg$", b!"\\.mp3$", b!"\\.mp4$", b!"\\.ogg$", b!"\\.avi$",
   b!"\\.mov$", b!"\\.fla$", b!"\\.flv$", b!"\\.midi$", b!"\\.wmf$", b!"\\.woff$", b!"\\.woff2$", b!"\\.eot$", b!"\\.otf$", b!"\\.a$", b!"\\.o$",
   b!"\\.dylib$", b!"\\.dll$", b!"\\.so$", b!"\\.pch$", b!"\\.tlb$", b!"\\.pdb$", b!"\\.ipdb$", b!"\\.nupkg$", b!"\\.ldf$", b!"\\.ndf$", b!"\\.plg$",
   b!"\\.h\\.in$", b!"\\.lib$", b!"\\.la$", b!"\\.llblgenproj$", b!"\\.out$", b!"\\.app$", b!"\\.sqlite$", b!"\\.mdf$", b!"\\.sdf$", b!"\\.pem$",
   b!"\\.p12$", b!"\\.pfx$", b!"\\.asc$", b!"\\.pkcs12$", b!"\\.ipr$", b!"\\.iws$", b!"\\.iml$", b!"\\.sln$", b!"\\.csproj$", b!"\\.vbproj$",
   b!"\\.fsproj$", b!"\\.dbproj$", b!"\\.deb$", b!"\\.elf$", b!"\\.jxr$", b!"\\.bin$", b!"\\.swf$", b!"\\.bin$", b!"\\.example$", b!"\\.log$",
   b!"\\.mailmap$", b!"\\.editorconfig$", b!"robots\\.txt$", b!"\\.vscodeignore$", b!"\\.coveragerc$", b!"\\.settings$", b!"\\.project$",
   b!"\\.bak$", b!"Screengrabfile$", b!"\\.orc$"]

/-- The expression in `/repo/ripsrc/fileinfo/gitignore.go:7`. -/
def ignorePatterns : Str := b!"(" ++ joinWith b!"|" ignoreAlts ++ b!")"

/-- `/repo/ripsrc/fileinfo/gitignore.go:1-7`. -/
def gitignoreGo : Str := b!"// DO NOT EDIT -- generated code\n\npackage fileinfo\n\nimport \"regexp\"\n\nvar ignorePatterns = regexp.MustCompile(" ++ (b!"`" ++ ignorePatterns ++ b!"`") ++ b!")\n"

/-- `ignorePatterns.MatchString` : `/repo/ripsrc/fileinfo/fileinfo.go:115`. (That the expression compiles is part of `C68_ignored`.) -/
def onExclusionList (path : Str) : Bool := ((rxParse ignorePatterns).map (fun r => r.matchString path)).getD false

end Ripsrc
