import Verif.Tools

/-!
# The scripts interrupted

scripts/license-headers.py and experimental.py stopped at any point (a signal, a full disk, a raising print). `open` with
mode `"w"` or `"wb"` empties the file, then the contents are written from the start. Simplification: what reaches
the file is a beginning of what is written, and other files are not affected.
-/

namespace QuDiet.Tools
open QuDiet.Qasm

/-- license-headers.py:145-147 with 125-135: the file systems in which `fix` can be stopped. -/
inductive FixStopped (year : Nat) : List Text → FS → FS → Prop
  /-- before the next file is looked at, or after the last one -/
  | here (paths : List Text) (fs : FS) : FixStopped year paths fs fs
  /-- after `open(filepath, mode="w")` in line 132, when a part (or nothing, or all) of the text was written -/
  | writing {p : Text} {paths : List Text} {fs : FS} {part : Text} (hp : needsFix year p fs = true)
      (hpart : part <+: addHeader year (fs p)) : FixStopped year (p :: paths) fs (fs.write p part)
  /-- later, the first file having been dealt with -/
  | later {p : Text} {paths : List Text} {fs fs' : FS} (h : FixStopped year paths (fix year [p] fs) fs') :
      FixStopped year (p :: paths) fs fs'

/-- experimental.py:65-81 with 93-122: the file systems in which a batch can be stopped. -/
inductive BatchStopped (process : Text → Text → PyM Text) (suffix : Text) : List Text → FS → FS → Prop
  /-- before the next file is looked at, while it is processed, or after the last one -/
  | here (files : List Text) (fs : FS) : BatchStopped process suffix files fs fs
  /-- after `open(output, "wb")` in line 110, when a part of the result was written -/
  | writing {f : Text} {files : List Text} {fs : FS} {result part : Text} (hr : process f (fs f) = .ok result)
      (hpart : part <+: result) : BatchStopped process suffix (f :: files) fs (fs.write (outputName suffix f) part)
  /-- later, the first file having been dealt with -/
  | later {f : Text} {files : List Text} {fs fs' : FS}
      (h : BatchStopped process suffix files (routine process suffix f fs) fs') :
      BatchStopped process suffix (f :: files) fs fs'

end QuDiet.Tools
