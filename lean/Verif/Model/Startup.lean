import Verif.Model.PosixEnv

/-!
# Limits and creation of the default Env (util/env_posix.cc)
-/

namespace Lsmdb
namespace Posix

/-- `std::numeric_limits<int>::max()`. -/
def INT_MAX : Int := 2147483647

/-- `RLIM_INFINITY`: `rlim_t` is an unsigned 64-bit number (Linux). -/
def RLIM_INFINITY : Nat := 2 ^ 64 - 1

/-- `kDefaultMmapLimit` (env_posix.cc:45) with 8-byte pointers. -/
def kDefaultMmapLimit : Int := 1000

/-- The global variables (env_posix.cc:42,48,883), and the static object in `Env::Default` (901) once it is constructed:
the initial values of its two limiters.  `env_initialized_` exists in assertion-enabled builds only. -/
structure Globals where
  g_open_read_only_file_limit : Int
  g_mmap_limit : Int
  env_initialized_ : Bool
  env_container : Option (Int × Int)
  deriving DecidableEq

/-- The values when the program starts (env_posix.cc:42,48,883). -/
def Globals.init : Globals := ⟨-1, kDefaultMmapLimit, false, none⟩

/-- `MaxMmaps` (env_posix.cc:767). -/
def Globals.MaxMmaps (g : Globals) : Int := g.g_mmap_limit

/-- `MaxOpenFiles` (env_posix.cc:770-785): result and globals.  `rlim` is what `getrlimit` yields: `none` if it fails, otherwise
`rlim_cur`.  The conversion of `rlim_cur / 5` to `int` is modulo `2^32`. -/
def Globals.MaxOpenFiles (g : Globals) (rlim : Option Nat) : Int × Globals :=
  if g.g_open_read_only_file_limit ≥ 0 then (g.g_open_read_only_file_limit, g)
  else
    let g := match rlim with
      | none => { g with g_open_read_only_file_limit := 50 }
      | some rlim_cur =>
        if rlim_cur = RLIM_INFINITY then { g with g_open_read_only_file_limit := INT_MAX }
        else { g with g_open_read_only_file_limit := wrap32 (rlim_cur / 5 : Nat) }
    (g.g_open_read_only_file_limit, g)

/-- `SingletonEnv::SingletonEnv` (env_posix.cc:851-860) with `PosixEnv::PosixEnv` (789-793); members are initialized in the order
of their declaration (761-763). -/
def Globals.construct (ndebug : Bool) (g : Globals) (rlim : Option Nat) : Globals :=
  let g := if ndebug then g else { g with env_initialized_ := true }
  let mmap_limiter_ := g.MaxMmaps
  let (fd_limiter_, g) := g.MaxOpenFiles rlim
  { g with env_container := some (mmap_limiter_, fd_limiter_) }

/-- `SingletonEnv::AssertEnvNotInitialized` (env_posix.cc:865-869). -/
def Globals.AssertEnvNotInitialized (ndebug : Bool) (g : Globals) : M Unit :=
  if ndebug then .ok () else cassert (!g.env_initialized_)

/-- `EnvPosixTestHelper::SetReadOnlyFDLimit` (env_posix.cc:890-893). -/
def Globals.SetReadOnlyFDLimit (ndebug : Bool) (g : Globals) (limit : Int) : M Globals := do
  g.AssertEnvNotInitialized ndebug
  return { g with g_open_read_only_file_limit := limit }

/-- `EnvPosixTestHelper::SetReadOnlyMMapLimit` (env_posix.cc:895-898). -/
def Globals.SetReadOnlyMMapLimit (ndebug : Bool) (g : Globals) (limit : Int) : M Globals := do
  g.AssertEnvNotInitialized ndebug
  return { g with g_mmap_limit := limit }

/-- `Env::Default` (env_posix.cc:900-903): the limits of the Env returned.  A function-local `static` is constructed by the first call;
concurrent first calls wait for it (C++). -/
def Globals.Default (ndebug : Bool) (g : Globals) (rlim : Option Nat) : (Int × Int) × Globals :=
  match g.env_container with
  | some e => (e, g)
  | none =>
    let g := g.construct ndebug rlim
    (g.env_container.getD (0, 0), g)

/-- What a program does with them.  `default rlim`: `Env::Default()`, when `getrlimit` would yield `rlim`. -/
inductive GOp where
  | setFd (limit : Int)
  | setMmap (limit : Int)
  | default (rlim : Option Nat)

/-- A history: the Envs returned by the `default` calls. -/
def Globals.run (ndebug : Bool) : Globals → List GOp → M (List (Int × Int))
  | _, [] => .ok []
  | g, .setFd n :: os => do
    let g ← g.SetReadOnlyFDLimit ndebug n
    g.run ndebug os
  | g, .setMmap n :: os => do
    let g ← g.SetReadOnlyMMapLimit ndebug n
    g.run ndebug os
  | g, .default rlim :: os => do
    let (e, g) := g.Default ndebug rlim
    let es ← g.run ndebug os
    return e :: es

end Posix
end Lsmdb
