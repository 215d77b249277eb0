import Verif.Parser
/-
Which builds of the crate there are: the features of `/repo/Cargo.toml`, the build script
`/repo/build.rs` and the conditional compilation in `/repo/src`.

Cargo builds a package once for all packages that depend on it, with the union of the
features they ask for.  How `rustc_version` finds out the version is not modelled
(`Toolchain` is what it finds, `none` that it fails); of the compiler only what
the crate itself makes conditional: `compile_error!`, a constant that must be defined
exactly once, and unstable features.
-/
namespace Xprs

/-- `[features]` of `Cargo.toml:36-40`. -/
inductive Feature where
  | pemdas | pejmdas | optimizations
  deriving DecidableEq

/-- `default = ["pemdas", "compile-time-optimizations"]` (`Cargo.toml:37`). -/
def defaultFeatures : List Feature := [.pemdas, .optimizations]

/-- What a package that depends on the crate writes in its `Cargo.toml`. -/
structure Request where
  /-- not `default-features = false` -/
  defaults : Bool
  features : List Feature
  deriving DecidableEq

/-- Cargo enables a feature if one of the dependents asks for it. -/
def enabled (rs : List Request) (f : Feature) : Bool :=
  rs.any fun r => r.features.contains f || (r.defaults && defaultFeatures.contains f)

/-- `rustc_version::Channel`. -/
inductive ReleaseChannel where
  | stable | beta | nightly | dev
  deriving DecidableEq

/-- The compiler, as far as the build script asks for it. -/
structure Toolchain where
  major : Nat
  channel : ReleaseChannel
  deriving DecidableEq

/-- `build.rs:7-23`: the lines printed; `none` if it panics. -/
def buildScript : Option Toolchain → Option (List Bytes)
  | none => none
  | some t =>
    if t.major ≥ 1 then
      some (b!"cargo:rerun-if-changed=build.rs" ::
        match t.channel with
        | .nightly => [b!"cargo:rustc-cfg=NIGHTLY"]
        | _ => [])
    else none

/-- Cargo passes `--cfg X` for every line `cargo:rustc-cfg=X`. -/
def cfgFlags (lines : List Bytes) : List Bytes :=
  lines.filterMap fun l =>
    if l.take 16 = b!"cargo:rustc-cfg=" then some (l.drop 16) else none

/-- The `compile_error!`s that are compiled (`lib.rs:334-339`). -/
def compileErrors (en : Feature → Bool) : List Bytes :=
  (if en .pemdas && en .pejmdas then
    [b!"You can't enable both features `pemdas` and `pejmdas` at the same time."] else []) ++
  (if !(en .pemdas || en .pejmdas) then
    [b!"You must enable either feature `pemdas` or `pejmdas`."] else [])

/-- The definitions of `IMPLICIT_MULTIPLICATION_PRECEDENCE` that are compiled
(`precedence.rs:11-16`). -/
def precedenceItems (en : Feature → Bool) : List Nat :=
  (if en .pejmdas then [3] else []) ++ (if en .pemdas then [precOf .times] else [])

/-- `#![cfg_attr(NIGHTLY, feature(box_patterns, float_gamma))]` (`lib.rs:308`). -/
def unstable (flags : List Bytes) : List Bytes :=
  if flags.contains b!"NIGHTLY" then [b!"box_patterns", b!"float_gamma"] else []

/-- The compilers that accept `#![feature(…)]`. -/
def ReleaseChannel.acceptsFeatures : ReleaseChannel → Bool
  | .nightly => true
  | .dev => true
  | _ => false

/-- What `cargo build` leads to. -/
inductive BuildRes where
  /-- the build script panics -/
  | scriptPanic
  /-- the compiler reports errors; the texts of `compile_error!` among them -/
  | failed (texts : List Bytes)
  /-- the build, and the value of `IMPLICIT_MULTIPLICATION_PRECEDENCE` in it -/
  | built (cfg : Cfg) (prec : Nat)
  deriving DecidableEq

/-- `cargo build` for the dependents `rs` with a profile that has overflow checks or not,
for a target. -/
def build (tc : Option Toolchain) (checks : Bool) (usize : Width) (rs : List Request) : BuildRes :=
  match buildScript tc, tc with
  | some lines, some t =>
    let flags := cfgFlags lines
    let en := enabled rs
    if compileErrors en ≠ [] then .failed (compileErrors en)
    else if unstable flags ≠ [] ∧ t.channel.acceptsFeatures = false then .failed []
    else
      match precedenceItems en with
      | [p] => .built ⟨en .optimizations, en .pejmdas, flags.contains b!"NIGHTLY", checks, usize⟩ p
      | _ => .failed []
  | _, _ => .scriptPanic

end Xprs
