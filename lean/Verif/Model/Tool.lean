import Verif.Model.MemEnv

/-!
# Model of `db/lsmdb_util.cc`
-/

namespace Lsmdb
namespace Tool

open MemEnv (lit)

/-- The text `Usage` prints to `stderr` (db/lsmdb_util.cc:10-14). -/
def usage : Bytes := lit "Usage: lsmdbutil command...\n   dump files...       -- dump contents of specified files\n"

/-- `main` (db/lsmdb_util.cc:16-29): what is printed to `stderr`, and the exit code.  `argv` are the `argc` C strings. -/
def main (argv : List Bytes) : Bytes × Nat :=
  let argc := argv.length
  let (err, ok) :=
    if argc < 2 then (usage, false)
    else
      let command := argv[1]?.getD []
      if command = lit "dump" then ([], true) else (usage, false)
  (err, if ok then 0 else 1)

end Tool
end Lsmdb
