import Verif.Model.ContextThrow
/- The destructor of a context. -/
namespace NuDB.Sched

/-- `~context` after `stop_all` (context.ipp 19-21): does it throw? -/
def Ctx.destroyThrows (c : Ctx) : Bool := !(c.waiting.isEmpty) || !(c.flushing.isEmpty)

end NuDB.Sched
