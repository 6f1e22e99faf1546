import Verif.Workspace.Text

/-!
# Model of the start of the UI server (causy/ui/server.py:167-226)

The web server itself and the routing are not modelled; the endpoints that serve results are in `Verif/Workspace/Diff.lean`, the
one that serves algorithms in `Verif/Serial/Files.lean`.
-/

namespace Verif
namespace UI

/-- The search for a port (server.py:206-209); `used p` tells whether something listens on port `p` when it is tried. -/
def findPort (used : Nat → Bool) (port : Nat) : Except PyErr Nat :=
  if used port then
    if port + 1 > 65535 then .error .valueError
    else findPort used (port + 1)
  else .ok port
termination_by 65536 - port

/-- The choice of the port (server.py:201-209); `env` is the environment variable `PORT`, an empty one being falsy. -/
def choosePort (env : Option (List Char)) (used : Nat → Bool) : Except PyErr Int :=
  match env with
  | none => (findPort used 8000).map Int.ofNat
  | some [] =>
    match Workspace.pyInt [] with
    | none => .error .valueError
    | some p => (findPort used p.toNat).map Int.ofNat
  | some s =>
    match Workspace.pyInt s with
    | none => .error .valueError
    | some p => .ok p

/-- the module globals `MODEL` and `WORKSPACE` (server.py:28-29) -/
structure Globals (M W : Type) where
  model : Option M
  workspace : Option W

/-- `server` (server.py:192-226) up to the configuration of the web server: the globals afterwards and the port.  An empty result
dictionary counts as none: `result` is `none` then. -/
def server {M W : Type} (g : Globals M W) (result : Option M) (workspace : Option W) (env : Option (List Char))
    (used : Nat → Bool) : Globals M W × Except PyErr Int :=
  let g1 : Globals M W := ⟨result.or g.model, workspace.or g.workspace⟩
  if g1.model.isNone && g1.workspace.isNone then (g1, .error .valueError)
  else (g1, choosePort env used)

end UI
end Verif
