import Verif.QasmFile

/-!
# The batch runner and the licence header script

experimental.py (which files it writes) and scripts/license-headers.py. A file system is a function from path
names to contents; every path that is looked at exists.
-/

namespace QuDiet.Tools
open QuDiet.Qasm

/-- Contents by path name. Simplification: one name per file (no links). -/
abbrev FS := Text → Text

/-- Write a file. -/
def FS.write (fs : FS) (p t : Text) : FS := fun q => if q = p then t else fs q

/-! ### experimental.py -/

/-- experimental.py:108: the name of the result file. -/
def outputName (suffix file : Text) : Text :=
  ['.'].intercalate (splitCh '.' file).dropLast ++ lit "-" ++ suffix ++ lit ".pkl"

/-- experimental.py:93-122 `routine`: `process` is everything from reading the file to the pickled result
(lines 95-106 and the bytes dumped at line 111), any function of the file's name and contents that may raise. An
exception is reported and swallowed. Simplification: writing the result file succeeds. -/
def routine (process : Text → Text → PyM Text) (suffix file : Text) (fs : FS) : FS :=
  match process file (fs file) with
  | .ok result => fs.write (outputName suffix file) result
  | .error _ => fs

/-- experimental.py:65-81 `main` in the modes `txt` and `qasm`, given the files that `glob` returned. -/
def batch (process : Text → Text → PyM Text) (suffix : Text) (files : List Text) (fs : FS) : FS :=
  files.foldl (fun fs file => routine process suffix file fs) fs

/-! ### license-headers.py -/

/-- license-headers.py:51 `lines_to_keep`. -/
def keep : List Text := [lit "# -*- coding: utf-8 -*-\n", lit "#!/usr/bin/env python\n"]

/-- license-headers.py:39-49, 52-81 `license_header_lines`, for the year in which the script runs. -/
def header (year : Nat) : List Text :=
  [lit "#               This file is part of the QuDiet package.\n",
   lit "#              https://github.com/LegacYFTw/qubit-qudit-sim\n",
   lit "#\n",
   lit "#                      Copyright (c) " ++ Nat.toDigits 10 year ++ lit ".\n",
   lit "#                      --.- ..- -.. .. . -\n",
   lit "#\n",
   lit "# Turbasu Chatterjee, Subhayu Kumar Bala, Arnav Das\n",
   lit "# Dr. Amit Saha, Prof. Anupam Chattopadhyay, Prof. Amlan Chakrabarti\n",
   lit "#\n",
   lit "#\n",
   lit "# SPDX-License-Identifier: AGPL-3.0\n",
   lit "#\n",
   lit "#  This program is free software: you can redistribute it and/or modify\n",
   lit "# it under the terms of the GNU General Public License as published by\n",
   lit "# the Free Software Foundation, version 3.\n",
   lit "#\n",
   lit "# This program is distributed in the hope that it will be useful, but\n",
   lit "# WITHOUT ANY WARRANTY; without even the implied warranty of\n",
   lit "# MERCHANTABILITY or FITNESS FOR A PARTICULAR PURPOSE. See the GNU\n",
   lit "# General Public License for more details.\n",
   lit "#\n",
   lit "# You should have received a copy of the GNU General Public License\n",
   lit "# along with this program. If not, see <http://www.gnu.org/licenses/>.\n",
   lit "#\n",
   lit "\n"]

/-- The lines of a text, with their line ends `\n`. -/
def splitLines : Text → List Text
  | [] => []
  | c :: t =>
    if c = '\n' then [c] :: splitLines t
    else match splitLines t with
      | [] => [[c]]
      | l :: ls => (c :: l) :: ls

/-- The lines that iterating over a file opened with mode `"r"` gives (license-headers.py:109-111, 126-127): `\r\n` and `\r` are
read as `\n`. -/
def fileLines (t : Text) : List Text := splitLines (universal t)

/-- license-headers.py:100-108: the tests on the path. `$` also matches before a final line feed. -/
def pathChecked (path : Text) : Bool :=
  [lit ".py", lit ".pyi", lit ".py\n", lit ".pyi\n"].any (fun s => s.isSuffixOf path) &&
  !(splitCh '/' path).dropLast.any fun o => (lit "__").isPrefixOf o || (lit ".").isPrefixOf o

/-- license-headers.py:109-122, on the lines of the file and the lines of a header. -/
def needsFixLines (hd : List Text) : List Text → Bool
  | [] => !hd.isEmpty
  | l :: ls =>
    if hd.head? = some l then (hd.zip (l :: ls)).any fun p => p.2 != p.1
    else if l ∈ keep then needsFixLines hd ls
    else true

/-- license-headers.py:99-122 `does_file_need_fix`. -/
def needsFix (year : Nat) (path : Text) (fs : FS) : Bool :=
  pathChecked path && needsFixLines (header year) (fileLines (fs path))

/-- license-headers.py:128-131: where the header goes. If every line is to be kept, the loop variable ends on
the last line. -/
def insertAt (lines : List Text) : Nat :=
  match lines.findIdx? (· ∉ keep) with
  | some i => i
  | none => lines.length - 1

/-- license-headers.py:125-135 `add_header_to_file`, on the contents. (On POSIX systems mode `"w"` writes `\n` as it is.) -/
def addHeader (year : Nat) (t : Text) : Text :=
  let lines := fileLines t
  (lines.take (insertAt lines) ++ header year ++ lines.drop (insertAt lines)).flatten

/-- license-headers.py:145-147 (with 84-96): `fix`, given the files that the arguments name or contain, in order.
The generator looks at each file when its turn comes. -/
def fix (year : Nat) (paths : List Text) (fs : FS) : FS :=
  paths.foldl (fun fs p => if needsFix year p fs then fs.write p (addHeader year (fs p)) else fs) fs

/-- license-headers.py:149: the files that `check` reports. -/
def check (year : Nat) (paths : List Text) (fs : FS) : List Text :=
  paths.filter fun p => needsFix year p fs

end QuDiet.Tools
