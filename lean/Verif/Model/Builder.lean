import Verif.Model.Str

/-!
# `rsm/builder.py`: from the HTML body to the web manuscript
-/

namespace RSM
namespace Build

/-- `(.*?)w` at the start of the text, for a nonempty text `w`: the group, and what comes after the
match.  `.` does not match a newline. -/
def lazyGroup (w : Str) : Str → Option (Str × Str)
  | [] => none
  | c :: s =>
    if w.isPrefixOf (c :: s) then some ([], (c :: s).drop w.length)
    else if c = '\n' then none
    else (lazyGroup w s).map fun x => (c :: x.1, x.2)

/-- `o(.*?)w` at the start of the text. -/
def matchBetween (o w s : Str) : Option (Str × Str) :=
  if o.isPrefixOf s then lazyGroup w (s.drop o.length) else none

/-- `re.search(o(.*?)w, s)`: the first group. -/
def searchBetween (o w : Str) : Str → Option Str
  | [] => none
  | c :: s =>
    match matchBetween o w (c :: s) with
    | some (g, _) => some g
    | none => searchBetween o w s

/-- `re.findall(o(.*?)w, s)`: matches are taken from the left and do not overlap.  The first argument
is the number of characters of the last match that are still to be passed over. -/
def findallBetween (o w : Str) : Nat → Str → List Str
  | _, [] => []
  | skip + 1, _ :: s => findallBetween o w skip s
  | 0, c :: s =>
    match matchBetween o w (c :: s) with
    | some (g, _) => g :: findallBetween o w (o.length + g.length + w.length - 1) s
    | none => findallBetween o w 0 s

/-- `SingleFileBuilder._extract_title` (builder.py:99-104). -/
def extractTitle (body : Str) : Str := (searchBetween "<h1>" "</h1>" body).getD []

/-- `BaseBuilder.find_required_assets` (builder.py:46-49), before `Path` is applied. -/
def findAssets (body : Str) : List Str := findallBetween "src=\"" "\"" 0 body

/-- A text as the list of its characters (the kernel takes long to decode string literals). -/
macro "chars!" s:str : term => do
  let cs := s.getString.toList.toArray.map Lean.Syntax.mkCharLit
  `([$cs,*])

/-- The template of the header (builder.py:70-91), after `dedent`. -/
def headerTemplate : Str :=
  chars! "<head>\n  <meta charset=\"utf-8\" />\n" ++
  chars! "  <meta name=\"viewport\" content=\"width=device-width, initial-scale=1.0\" />\n" ++
  chars! "  <meta name=\"generator\" content=\"RSM 0.0.1 https://github.com/leotrs/rsm\" />\n\n" ++
  chars! "  <link rel=\"stylesheet\" type=\"text/css\" href=\"static/rsm.css\" />\n" ++
  chars! "  <link rel=\"stylesheet\" type=\"text/css\" href=\"static/tooltipster.bundle.css\" />\n" ++
  chars! "  <link rel=\"stylesheet\" href=\"https://cdn.jsdelivr.net/npm/pseudocode@latest/build/pseudocode.min.css\">\n\n" ++
  chars! "  <script src=\"static/jquery-3.6.0.js\"></script>\n" ++
  chars! "  <script src=\"static/tooltipster.bundle.js\"></script>\n" ++
  chars! "  <script type=\"module\">\n" ++
  chars! "    import { onload } from '/static/onload.js';\n" ++
  chars! "    window.addEventListener('load', (ev) => {window.lsp_ws = onload();});\n" ++
  chars! "  </script>\n\n" ++
  chars! "  <title>__TITLE_PLACEHOLDER__</title>\n</head>\n"

/-- `make_html_header` (builder.py:69-94). -/
def htmlHeader (body : Str) : Str := pyReplace "__TITLE_PLACEHOLDER__" (extractTitle body) headerTemplate

/-- `make_html_footer` (builder.py:96-97). -/
def htmlFooter : Str := []

/-- The text of the page (builder.py:57-65). -/
def page (body : Str) : Str :=
  "<html>\n\n".toList ++ htmlHeader body ++ "\n".toList ++ strip body ++ "\n\n".toList ++ htmlFooter ++
    "</html>\n".toList

/-! ## Paths (`pathlib`) -/

/-- The parts of a path between slashes. -/
def splitSlash : Str → List Str
  | [] => [[]]
  | c :: s =>
    if c = '/' then [] :: splitSlash s
    else match splitSlash s with
      | [] => [[c]]
      | p :: ps => (c :: p) :: ps

/-- The parts of a path that `Path` keeps: not the empty ones and not ".". -/
def pathParts (s : Str) : List Str := (splitSlash s).filter fun p => p ≠ [] && p ≠ ".".toList

/-- `Path(s).name`. -/
def pathName (s : Str) : Str := ((pathParts s).getLast?).getD []

/-- `Path(s).suffix`, for a string without slashes: from the last dot on, unless the name begins or
ends with it. -/
def pathSuffix (s : Str) : Str :=
  let tail := s.reverse.takeWhile (· ≠ '.')
  if tail = [] || tail.length + 1 ≥ s.length then [] else '.' :: tail.reverse

/-! ## The web manuscript -/

/-- `WebManuscript` (manuscript.py:16-28): its files by path, whether it has the directory `static`,
and its attributes `body` and `html`.  The file system itself (`fs.mountfs`, `fs.memoryfs`) is a
function from paths to contents. -/
structure Web where
  files : Str → Option Str := fun _ => none
  hasStatic : Bool := false
  body : Str := []
  html : Str := []

/-- Writing a file. -/
def Web.write (w : Web) (path contents : Str) : Web :=
  { w with files := fun p => if p = path then some contents else w.files p }

/-- What is on the disk: the directory `static` of the package (in the order of `listdir`), and the
files that can be read from the current directory, by the text of a `Path`. -/
structure Disk where
  static : List (Str × Str)
  cwd : Str → Option Str

/-- The state of the builder. -/
structure BuildState where
  web : Web := {}
  assets : List Str := []

/-- `BaseBuilder.build` with `SingleFileBuilder.make_main_file` (builder.py:28-40, 56-67); messages
to the logger are left out, and the manuscript is returned by reference. -/
def singleFile (body : Str) : PyM BuildState Unit :=
  PyM.modify fun _ =>
    { assets := findAssets body
      web := { (({} : Web).write "index.html" (page body)) with body := body, html := page body } }

/-- `mount_static` (builder.py:117-126). -/
def mountStatic (d : Disk) : PyM BuildState Unit := do
  PyM.modify fun s => { s with web := { s.web with hasStatic := true } }
  PyM.forEach (fun f : Str × Str =>
      PyM.modify fun s => { s with web := s.web.write ("static/".toList ++ f.1) f.2 })
    (d.static.filter fun f => pathSuffix f.1 = ".js".toList || pathSuffix f.1 = ".css".toList)

/-- `copy_file(source, str(fn), self.web, f"static/{fn.name}")`: fails if the source is not a file
that can be read, or if the target is a directory. -/
def copyAsset (d : Disk) (fn : Str) : PyM BuildState Unit :=
  match d.cwd fn with
  | none => PyM.throw .otherError
  | some c =>
    if pathName fn = [] || pathName fn = "..".toList then PyM.throw .otherError
    else PyM.modify fun s => { s with web := s.web.write ("static/".toList ++ pathName fn) c }

/-- `mount_required_assets` (builder.py:128-132). -/
def mountAssets (d : Disk) : PyM BuildState Unit := do
  let s ← PyM.get
  PyM.forEach (copyAsset d) s.assets

/-- `FullBuilder.build` (builder.py:108-115). -/
def fullBuild (d : Disk) (body : Str) : PyM BuildState Unit := do
  singleFile body
  mountStatic d
  mountAssets d

end Build
end RSM
