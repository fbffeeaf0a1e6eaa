import Verif.Model.Program

/-!
# The commands `rsm-render`, `rsm-lint` and `rsm-make` (`cli.py`) with the stages of the other modules

The command line has been parsed by `argparse` (not modelled) with the options of cli.py:19-82.  The result
is the exit status and what is printed.  `rsm-make` is without `--serve`.
-/

namespace RSM
namespace Program

/-- `rsm-render` (cli.py:107-109). -/
def rsmRender (o : Outer) (args : CliArgs) : ProgM (Int × Option (Val Obj)) := cliRender o.log (stages o) args

/-- `rsm-lint` (cli.py:112-116). -/
def rsmLint (o : Outer) (args : CliArgs) : ProgM (Int × Option (Val Obj)) := cliLint o.log (stages o) args

/-- `rsm-make` (cli.py:119-134). -/
def rsmMake (o : Outer) (args : CliArgs) : ProgM (Int × Option (Val Obj)) := cliMake o.log (stages o) args

end Program
end RSM
