import Verif.Props.C01_Fifo
import Verif.Props.C02_ThreadFifo
import Verif.Props.C03_Skid
import Verif.Props.C04_Mul
import Verif.Props.C05_Div
import Verif.Props.C07_Ram
import Verif.Props.C08_Burst
import Verif.Props.C100_StreamAvg
import Verif.Props.C101_TestBench
import Verif.Props.C102_SeqUpdate
import Verif.Props.C103_AxiSplit
import Verif.Props.C104_IpXact
import Verif.Props.C105_ThreadPrint
import Verif.Props.C106_AxiPull
import Verif.Props.C107_VEquals
import Verif.Props.C108_CopyCache
import Verif.Props.C109_PartReset
import Verif.Props.C10_Multibank
import Verif.Props.C110_UserReset
import Verif.Props.C11_SeqIf
import Verif.Props.C12_SeqOrder
import Verif.Props.C13_SeqDelay
import Verif.Props.C14_SeqPrev
import Verif.Props.C14_SeqPrevCond
import Verif.Props.C15_FsmReset
import Verif.Props.C15_SeqReset
import Verif.Props.C16_FsmStep
import Verif.Props.C17_FsmCase
import Verif.Props.C18_FsmDelay
import Verif.Props.C19_ForList
import Verif.Props.C19_Thread
import Verif.Props.C20_Break
import Verif.Props.C21_Mutex
import Verif.Props.C22_MutexProgress
import Verif.Props.C23_Barrier
import Verif.Props.C24_Schedule
import Verif.Props.C25_Control
import Verif.Props.C26_Reduce
import Verif.Props.C27_Counter
import Verif.Props.C28_Xorshift
import Verif.Props.C29_SraRound
import Verif.Props.C30_Tree
import Verif.Props.C31_Pattern
import Verif.Props.C32_Shape
import Verif.Props.C33_Multi
import Verif.Props.C34_Bursts
import Verif.Props.C35_AxiChan
import Verif.Props.C36_Outstanding
import Verif.Props.C37_Width
import Verif.Props.C37_WidthWrite
import Verif.Props.C38_DmaReq
import Verif.Props.C39_Fixed
import Verif.Props.C41_Saturate
import Verif.Props.C42_Index
import Verif.Props.C43_Literal
import Verif.Props.C44_Resolver
import Verif.Props.C45_Names
import Verif.Props.C46_Copy
import Verif.Props.C47_Mux
import Verif.Props.C49_FsmIf
import Verif.Props.C49_NestedIf
import Verif.Props.C50_FsmKeep
import Verif.Props.C50_Keep
import Verif.Props.C53_Uart
import Verif.Props.C54_AxiLite
import Verif.Props.C55_AxiBurst
import Verif.Props.C56_AxiMem
import Verif.Props.C57_AxiWord
import Verif.Props.C58_Dataflow
import Verif.Props.C59_Pipeline
import Verif.Props.C60_PipelineReady
import Verif.Props.C61_ThreadRun
import Verif.Props.C62_StreamRun
import Verif.Props.C63_Emit
import Verif.Props.C64_Read
import Verif.Props.C65_Hier
import Verif.Props.C66_Block
import Verif.Props.C67_StreamIn
import Verif.Props.C68_StreamOut
import Verif.Props.C69_StreamMem
import Verif.Props.C70_Pool
import Verif.Props.C71_Submodule
import Verif.Props.C72_RingBuffer
import Verif.Props.C73_StreamArith
import Verif.Props.C74_LineBuf
import Verif.Props.C75_MultiCycle
import Verif.Props.C76_StreamFifo
import Verif.Props.C77_EmitMod
import Verif.Props.C78_ModRound
import Verif.Props.C79_Substream
import Verif.Props.C80_ReduceValid
import Verif.Props.C81_StreamParam
import Verif.Props.C82_ArgBind
import Verif.Props.C83_ReadModWrite
import Verif.Props.C84_StreamFifoOp
import Verif.Props.C85_StreamBits
import Verif.Props.C86_Shared
import Verif.Props.C87_Rom
import Verif.Props.C88_Names
import Verif.Props.C89_Expr
import Verif.Props.C90_MemImage
import Verif.Props.C91_DfSched
import Verif.Props.C92_AxiMulti
import Verif.Props.C93_DfArith
import Verif.Props.C94_DfAcc
import Verif.Props.C95_SinkMulti
import Verif.Props.C96_Parallel
import Verif.Props.C97_ResolverLoops
import Verif.Props.C98_AxiSerial
import Verif.Props.C99_CustomCnt
