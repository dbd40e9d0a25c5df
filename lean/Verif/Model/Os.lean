import Verif.Model.Serializer

/-!
# Failing system calls (graph_serializer.cpp:32-75, 298-323; cpp_libs/mio/mio.hpp)

One process saves and loads one file.  Of the process only the number of open file descriptors is
kept, of the file its contents.  Which system calls fail is an input.

Simplifications: `ftruncate` makes a file with holes, so a full disk shows only when a byte is stored
into the mapping, and then as the signal SIGBUS, which ends the process; the number of bytes that can
be stored is an input.  `close` gives back the descriptor even if it reports an error (as on Linux).
Losing power, other processes changing the file while it is mapped, and reading errors (SIGBUS while
loading) are left out.
-/

namespace Capi

namespace Os

open Serial (Buf Write)

/-- How a call can end other than by returning. -/
inductive Stop where
  /-- an exception, or undefined behaviour -/
  | fault (f : Fault)
  /-- the process is gone -/
  | killed
  deriving DecidableEq

/-- Which system calls succeed during a call. -/
structure Sys where
  /-- graph_serializer.cpp:308 -/
  openNew : Bool
  /-- graph_serializer.cpp:312 -/
  truncate : Bool
  /-- graph_serializer.cpp:315 -/
  close : Bool
  /-- mio.hpp:869 -/
  openMap : Bool
  /-- mio.hpp:892 -/
  stat : Bool
  /-- mio.hpp:944 -/
  mmap : Bool
  /-- the number of bytes that can be stored before the disk is full -/
  room : ℕ
  /-- mio.hpp:1127 -/
  sync : Bool

/-- A file (`none` if there is no such file) and the number of open descriptors. -/
structure Proc where
  file : Option Buf
  fds : ℕ
  deriving DecidableEq

/-- graph_serializer.cpp:298-318 `allocate_file`.  If `ftruncate` fails the descriptor is not
closed. -/
def allocateFile (limit : ℕ) (s : Sys) (n : ℕ) (p : Proc) : Except Stop Unit × Proc :=
  if s.openNew ∧ p.fds < limit then
    if s.truncate then
      (if s.close then .ok () else .error (.fault .exn),
        ⟨some (Serial.allocate (p.file.getD []) n), p.fds⟩)
    else (.error (.fault .exn), ⟨some (p.file.getD []), p.fds + 1⟩)
  else (.error (.fault .exn), p)

/-- mio.hpp:516-565, 1041-1107 `make_mmap_sink`, `make_mmap_source` for a path.  An empty file cannot
be mapped.  If the mapping fails the descriptor is not closed: `file_handle_` is not set yet. -/
def mapFile (limit : ℕ) (s : Sys) (p : Proc) : Except Stop Buf × Proc :=
  match p.file with
  | none => (.error (.fault .exn), p)
  | some b =>
    if s.openMap ∧ p.fds < limit then
      if s.stat ∧ s.mmap ∧ b ≠ [] then (.ok b, { p with fds := p.fds + 1 })
      else (.error (.fault .exn), { p with fds := p.fds + 1 })
    else (.error (.fault .exn), p)

/-- graph_serializer.cpp:45-49: the stores into the mapping. -/
def storeAll (s : Sys) (ws : List Write) (b : Buf) : Except Stop Unit × Buf :=
  match Serial.applyWrites b (ws.take s.room) with
  | .error e => (.error (.fault e), b)
  | .ok b1 => (if ws.length ≤ s.room then .ok () else .error .killed, b1)

/-- graph_serializer.cpp:32-57 `serialize_to_file`.  The destructor of the mapping closes its
descriptor (mio.hpp:971-975, 1142-1166). -/
def save (limit : ℕ) (s : Sys) (g : Graph) (p : Proc) : Except Stop Unit × Proc :=
  match Serial.countCrossing g with
  | .error e => (.error (.fault e), p)
  | .ok k =>
    match allocateFile limit s (Serial.fileSize g k) p with
    | (.error e, p1) => (.error e, p1)
    | (.ok _, p1) =>
      match mapFile limit s p1 with
      | (.error e, p2) => (.error e, p2)
      | (.ok b, p2) =>
        match Serial.stores g k with
        | .error e => (.error (.fault e), ⟨p2.file, p2.fds - 1⟩)
        | .ok ws =>
          match storeAll s ws b with
          | (.error e, b1) => (.error e, ⟨some b1, p2.fds - 1⟩)
          | (.ok _, b1) =>
            (if s.sync then .ok () else .error (.fault .exn), ⟨some b1, p2.fds - 1⟩)

/-- graph_serializer.cpp:59-75 `deserialize_from_file`. -/
def load (limit : ℕ) (s : Sys) (T : ℕ → Polygon.SumTree) (p : Proc) : Except Stop Graph × Proc :=
  match mapFile limit s p with
  | (.error e, p1) => (.error e, p1)
  | (.ok b, p1) =>
    (match Serial.load T b with
      | .error e => .error (.fault e)
      | .ok g => .ok g, { p1 with fds := p1.fds - 1 })

/-- A process trying to load the same file `n` times. -/
def loads (limit : ℕ) (s : Sys) (T : ℕ → Polygon.SumTree) (p : Proc) : ℕ → Proc
  | 0 => p
  | n + 1 => loads limit s T (load limit s T p).2 n

end Os

end Capi
