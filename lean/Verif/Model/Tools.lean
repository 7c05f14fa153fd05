import Verif.Model.DiscreteHilbert
import Mathlib.Data.Nat.Digits.Defs

/-! The diagnostic tools `netket/tools` (`python -m netket.tools.info`, `python -m netket.tools.check_mpi`): texts are lists of
    characters, the outputs of commands, the contents of files and `int` of Python are arguments. -/

namespace Verif.Tools

open Verif.Hilbert (Err)

/-- a Python string (netket/tools/_cpu_info.py, _mpi_info.py, _common.py). -/
abbrev Str := List Char

/-- white space in `strip` and `split` of Python; simplified to the ASCII characters of `string.whitespace`
    (used in netket/tools/_common.py:12, _cpu_info.py:67, 75, 96, 100, 107, _mpi_info.py:31). -/
def isWs (c : Char) : Bool :=
  c == ' ' || c == '\t' || c == '\n' || c == '\r' || c == Char.ofNat 11 || c == Char.ofNat 12

/-- `str.strip()` (netket/tools/_common.py:12, _cpu_info.py:67, 96, 100). -/
def strip (s : Str) : Str := ((s.dropWhile isWs).reverse.dropWhile isWs).reverse

/-- `str.split()`, with the current word (netket/tools/_cpu_info.py:75, 107, _mpi_info.py:31). -/
def wordsAux (cur : Str) : Str → List Str
  | [] => if cur = [] then [] else [cur]
  | c :: t => if isWs c then (if cur = [] then wordsAux [] t else cur :: wordsAux [] t) else wordsAux (cur ++ [c]) t

/-- `str.split()` (netket/tools/_cpu_info.py:75, 107, _mpi_info.py:31). -/
def words (s : Str) : List Str := wordsAux [] s

/-- `str.split(sep, 1)` unpacked into two variables; `none` if there are not two parts
    (netket/tools/_cpu_info.py:68, 99). -/
def cut (sep : Str) : Str → Option (Str × Str)
  | [] => none
  | c :: t => if sep.isPrefixOf (c :: t) then some ([], (c :: t).drop sep.length)
      else (cut sep t).map fun p => (c :: p.1, p.2)

/-- `sub in text` (netket/tools/_cpu_info.py:78-79). -/
def contains (sub : Str) : Str → Bool
  | [] => sub.isPrefixOf []
  | c :: t => sub.isPrefixOf (c :: t) || contains sub t

/-- `str.splitlines()` with the current line; simplified to lines ended by a newline character
    (netket/tools/_cpu_info.py:64). -/
def linesAux (cur : Str) : Str → List Str
  | [] => if cur = [] then [] else [cur]
  | c :: t => if c = '\n' then cur :: linesAux [] t else linesAux (cur ++ [c]) t

/-- `str.splitlines()` (netket/tools/_cpu_info.py:64) and `readlines` without the newlines, which are stripped
    (netket/tools/_cpu_info.py:93, 96). -/
def lines (s : Str) : List Str := linesAux [] s

/-- `exec_in_terminal`: the output of the command, `none` for `CalledProcessError` (netket/tools/_common.py:5-12). -/
def execInTerminal (output : Option Str) : Option Str := output.map strip

/-! ### number of CPUs -/

/-- the first match of `(?m)^Cpus_allowed:\s*(.*)$`, its group (netket/tools/_cpu_info.py:20-22); the flag tells whether the
    position is the beginning of a line. -/
def searchMask : Bool → Str → Option Str
  | _, [] => none
  | b, c :: t =>
    if b && "Cpus_allowed:".toList.isPrefixOf (c :: t) then
      some ((((c :: t).drop 13).dropWhile isWs).takeWhile (· != '\n'))
    else searchMask (c == '\n') t

/-- value of a hexadecimal digit in `int(_, 16)` (netket/tools/_cpu_info.py:24). -/
def hexDigit (c : Char) : Option Nat :=
  let n := c.toNat
  if 48 ≤ n ∧ n ≤ 57 then some (n - 48)
  else if 97 ≤ n ∧ n ≤ 102 then some (n - 87)
  else if 65 ≤ n ∧ n ≤ 70 then some (n - 55) else none

/-- the digits of `int(_, 16)` read so far (netket/tools/_cpu_info.py:24). -/
def hexAux (acc : Nat) : Str → Except Err Nat
  | [] => .ok acc
  | c :: t => match hexDigit c with
    | some d => hexAux (acc * 16 + d) t
    | none => .error .valueError

/-- `int(s, 16)`; simplified: signs, underscores and the prefix `0x` are not read (netket/tools/_cpu_info.py:24). -/
def parseHex (s : Str) : Except Err Nat := if s = [] then .error .valueError else hexAux 0 s

/-- `available_cpus()`: `linux` is `PLATFORM.startswith("linux")`, `status` the contents of `/proc/self/status` (`none` if it
    cannot be opened), `cpuCount` the number reported by multiprocessing; `none` is `None` of Python
    (netket/tools/_cpu_info.py:9-32). -/
def availableCpus (linux : Bool) (status : Option Str) (cpuCount : Nat) : Except Err (Option Nat) :=
  if linux then
    match status with
    | none => .ok none
    | some text =>
      match searchMask true text with
      | none => .ok none
      | some g =>
        match parseHex (g.filter (· != ',')) with
        | .error e => .error e
        | .ok n =>
          let res := (Nat.digits 2 n).count 1
          if res > 0 then .ok (some res) else .ok none
  else .ok (some cpuCount)

/-! ### information on the processor -/

/-- values of the dictionary of `cpu_info` (netket/tools/_cpu_info.py:63-80, 94-115). -/
inductive Val where
  | int (n : Int)
  | str (s : Str)
  | list (l : List Str)
  | bool (b : Bool)
deriving DecidableEq

/-- the dictionary `info` (netket/tools/_cpu_info.py:63, 94). -/
abbrev Info := Str → Option Val

/-- `info[key] = value` (netket/tools/_cpu_info.py:74, 106). -/
def Info.put (i : Info) (k : Str) (v : Val) : Info := fun q => if q = k then some v else i q

/-- `dict.get(key, key)` for a table of translations (netket/tools/_cpu_info.py:69, 76, 101). -/
def translate (table : List (Str × Str)) (k : Str) : Str := ((table.find? fun p => p.1 = k).map Prod.snd).getD k

/-- `PCPUINFO_KEY_TRANSLATIONS` (netket/tools/_cpu_info.py:83-88). -/
def procKeys : List (Str × Str) :=
  [("vendor_id".toList, "vendor".toList), ("model".toList, "model_display".toList),
   ("family".toList, "family_display".toList), ("model name".toList, "brand".toList)]

/-- `SYSCTL_KEY_TRANSLATIONS` (netket/tools/_cpu_info.py:38-43). -/
def sysctlKeys : List (Str × Str) :=
  [("model".toList, "model_display".toList), ("family".toList, "family_display".toList),
   ("extmodel".toList, "extended_model".toList), ("extfamily".toList, "extended_family".toList)]

/-- `SYSCTL_FLAG_TRANSLATIONS` (netket/tools/_cpu_info.py:46-49). -/
def sysctlFlags : List (Str × Str) := [("sse4.1".toList, "sse4_1".toList), ("sse4.2".toList, "sse4_2".toList)]

/-- `try: value = int(value)`; `num` is `int` of Python, `none` for `ValueError` (netket/tools/_cpu_info.py:70-73, 102-105). -/
def toVal (num : Str → Option Int) (v : Str) : Val := match num v with | some n => .int n | none => .str v

/-- the loop over the lines of `/proc/cpuinfo` (netket/tools/_cpu_info.py:95-106). -/
def procLoop (num : Str → Option Int) (i : Info) : List Str → Except Err Info
  | [] => .ok i
  | l :: rest =>
    if strip l = [] then .ok i
    else match cut [':'] (strip l) with
      | none => .error .valueError
      | some (k, v) => procLoop num (i.put (translate procKeys (strip k)) (toVal num (strip v))) rest

/-- `get_proc_cpuinfo()` on the lines of `/proc/cpuinfo` (netket/tools/_cpu_info.py:91-115). -/
def procCpuinfo (num : Str → Option Int) (ls : List Str) : Except Err Info :=
  match procLoop num (fun _ => none) ls with
  | .error e => .error e
  | .ok i =>
    match i "flags".toList with
    | none => .error .keyError
    | some (.str s) =>
      let flags := if "pni".toList ∈ words s then words s ++ ["sse3".toList] else words s
      .ok ((((i.put "flags".toList (.list flags)).put "unknown_flags".toList (.list ["3dnow".toList])).put
        "supports_avx".toList (.bool (decide ("avx".toList ∈ flags)))).put
        "supports_avx2".toList (.bool (decide ("avx2".toList ∈ flags))))
    | some _ => .error .attributeError

/-- the loop over the lines of `sysctl -a` (netket/tools/_cpu_info.py:64-74). -/
def sysctlLoop (num : Str → Option Int) (i : Info) : List Str → Except Err Info
  | [] => .ok i
  | l :: rest =>
    if "machdep.cpu.".toList.isPrefixOf l then
      match cut ": ".toList ((strip l).drop 12) with
      | none => .error .valueError
      | some (k, v) => sysctlLoop num (i.put (translate sysctlKeys k) (toVal num v)) rest
    else sysctlLoop num i rest

/-- `get_sysctl_cpu()`; `lower` is `str.lower`, `output` the output of `sysctl -a` (netket/tools/_cpu_info.py:61-80). -/
def sysctlCpu (num : Str → Option Int) (lower : Str → Str) (output : Str) : Except Err Info :=
  let text := strip output
  match sysctlLoop num (fun _ => none) (lines text) with
  | .error e => .error e
  | .ok i =>
    match i "features".toList with
    | none => .error .keyError
    | some (.str s) =>
      .ok ((((i.put "flags".toList (.list ((words s).map fun f => translate sysctlFlags (lower f)))).put
        "unknown_flags".toList (.list ["3dnow".toList])).put
        "supports_avx".toList (.bool (contains "hw.optional.avx1_0: 1\n".toList text))).put
        "supports_avx2".toList (.bool (contains "hw.optionxwal.avx2_0: 1\n".toList text)))
    | some _ => .error .attributeError

/-- the platform as `sys.platform` tells it (netket/tools/_cpu_info.py:6, 53, 55). -/
inductive Platform where
  | darwin
  | linux
  | other

/-- `cpu_info()` (netket/tools/_cpu_info.py:52-58). -/
def cpuInfo (num : Str → Option Int) (lower : Str → Str) (p : Platform) (sysctl : Str) (cpuinfo : List Str) : Except Err Info :=
  match p with
  | .darwin => sysctlCpu num lower sysctl
  | .linux => procCpuinfo num cpuinfo
  | .other => .error .valueError

/-! ### MPI -/

/-- `get_link_flags(flags)` (netket/tools/_mpi_info.py:30-37). -/
def linkFlags (flags : Str) : List Str :=
  (words (flags.map fun c => if c = ',' then ' ' else c)).filter fun f => "-L".toList.isPrefixOf f

/-- the dictionary of `get_global_mpi_info`; `linkFlags` is the empty string (`none`) without mpicc
    (netket/tools/_mpi_info.py:6-27). -/
structure MpiInfo where
  mpicc : Str
  mpirun : Str
  mpiexec : Str
  linkFlags : Option (List Str)
deriving DecidableEq

/-- `get_global_mpi_info()`: `which` is the output of `which name` and `showCmd` that of `compiler -show`, `none` if the command
    fails; the result is `none` if the exception of the last command leaves the function (netket/tools/_mpi_info.py:6-27). -/
def globalMpiInfo (which showCmd : Str → Option Str) : Option MpiInfo :=
  let get := fun n => (execInTerminal (which n)).getD []
  let cc := get "mpicc".toList
  if cc ≠ [] then
    (execInTerminal (showCmd cc)).map fun s => ⟨cc, get "mpirun".toList, get "mpiexec".toList, some (linkFlags s)⟩
  else some ⟨cc, get "mpirun".toList, get "mpiexec".toList, none⟩

/-! ### printing -/

/-- `f"{key : <{width}}"` for a width that is not negative (netket/tools/info.py:34, 37, 39). -/
def ljust (width : Nat) (s : Str) : Str := s ++ List.replicate (width - s.length) ' '

/-- `printfmt(key, value, indent=, pre=, alignment=)`: the printed line; a negative width is not a valid format
    (netket/tools/info.py:27-39). -/
def printfmt (key : Str) (value : Option Str) (indent : Nat) (pre : Str) (alignment : Int) : Except Err Str :=
  let a := if indent > 0 then alignment - ((indent * 2 : Nat) + 2) else alignment
  let p := if indent > 0 then pre ++ ljust (indent * 2) [] ++ "- ".toList else pre
  if a < 0 then .error .valueError
  else match value with
    | some v => .ok (p ++ ljust a.toNat key ++ " : ".toList ++ v)
    | none => .ok (p ++ ljust a.toNat key)

/-- `version(lib)`; the library is `none` if importing it raises `ImportError`, and has a `__version__` or not
    (netket/tools/_common.py:15-48). -/
def version (lib : Option (Option Str)) : Str :=
  match lib with
  | none => "unavailable".toList
  | some (some v) => v
  | some none => "available".toList

/-- `_jax_backends()`; `devices b` tells whether `jax.devices(b)` returns (netket/tools/info.py:142-153). -/
def jaxBackends (devices : Str → Bool) : List Str :=
  ["cpu".toList, "gpu".toList, "tpu".toList].foldl (fun acc b => if devices b then acc ++ [b] else acc) []

/-- the rows printed by `check_mpi()` on rank `rank`: names padded to the longest (netket/tools/check_mpi.py:20-57). -/
def checkMpi (rank : Nat) (rows : List (Str × Str)) : List Str :=
  if rank > 0 then []
  else
    let w := (rows.map fun r => r.1.length).foldl max 0
    rows.map fun r => ljust w r.1 ++ " : ".toList ++ r.2

end Verif.Tools
