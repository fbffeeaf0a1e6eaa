import Verif.Model.Cli

/-!
# What a command is given

For C89.
-/

namespace RSM
namespace Program

/-- The source text that a command is given: on the command line with `-c`, else in the file that it names. -/
inductive CliText (files : Str → Option Str) (args : CliArgs) : Str → Prop
  | given : args.string = true → args.src ≠ [] → CliText files args args.src
  | file {src : Str} : args.string = false → args.src ≠ [] → files args.src = some src → CliText files args src

/-- The formats that `--log-format` accepts. -/
def cliFormats : List Str := ["plain".toList, "rsm".toList, "json".toList, "lint".toList]

/-- How a command ends. -/
structure Ends (files : Str → Option Str) (r : Res (World Sys) (Int × Option (Val Obj))) (status : Int) (printed : Option Str) :
    Prop where
  value : r.value = some (status, printed.map .str)
  files : r.state.user.files = files

/-- A command is ended by an exception. -/
structure Fails (files : Str → Option Str) (r : Res (World Sys) (Int × Option (Val Obj))) (e : PyErr) : Prop where
  raised : r.raised = some e
  files : r.state.user.files = files

end Program
end RSM
